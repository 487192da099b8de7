import Verif.Proofs.Cli
import Verif.Props.Boolean
/-!
# C53: the command line program
-/
namespace Kigumi.Props
open Outcome Cli Spec Spec.Cli
open Global (Warnings)
variable {X P D B Cell : Type}

/-- Every argument has exactly one interpretation. -/
theorem C53_meaning (n : Name) : ∃ m, Means n m ∧ ∀ m', Means n m' → m' = m := by
  by_cases h1 : n = ":empty:".toList
  · refine ⟨.empty, .empty h1, ?_⟩
    intro m' h
    cases h with
    | empty _ => rfl
    | full h => subst h1; exact absurd h (by decide)
    | file f h => exact absurd h1 (format_not_empty h).1
    | unsupported h _ _ => exact absurd h1 h
  · by_cases h2 : n = ":full:".toList
    · refine ⟨.full, .full h2, ?_⟩
      intro m' h
      cases h with
      | empty h => exact absurd h h1
      | full _ => rfl
      | file f h => exact absurd h2 (format_not_empty h).2
      | unsupported _ h _ => exact absurd h2 h
    · by_cases h3 : ∃ f, HasFormat n f
      · obtain ⟨f, hf⟩ := h3
        refine ⟨.file f, .file f hf, ?_⟩
        intro m' h
        cases h with
        | empty h => exact absurd h h1
        | full h => exact absurd h h2
        | file g h => rw [format_unique h hf]
        | unsupported _ _ h => exact absurd hf (h f)
      · refine ⟨.unsupported, .unsupported h1 h2 fun f hf => h3 ⟨f, hf⟩, ?_⟩
        intro m' h
        cases h with
        | empty h => exact absurd h h1
        | full h => exact absurd h h2
        | file g h => exact absurd ⟨g, h⟩ h3
        | unsupported _ _ _ => rfl

theorem kigumi_iff {n : Name} : endsWith n ".kigumi".toList = true ↔ HasFormat n .kigumi := endsWith_iff

/-- The two names stand for the two regions whatever files exist; a file of a supported format is read with the reader of the format; anything else fails,
says why, and changes no file. -/
theorem C53_read (E : Env X P D B) (n : Name) (w : World X) :
    (Means n .empty → readRegion E n w = (w, ok (some Region.emptyRegion))) ∧
    (Means n .full → readRegion E n w = (w, ok (some Region.fullRegion))) ∧
    (∀ c, Means n (.file .kigumi) → E.readable n = true → w.files n = some c → readRegion E n w = (w, E.readKigumi c)) ∧
    (∀ f c, f ≠ .kigumi → Means n (.file f) → E.readable n = true → w.files n = some c →
      readRegion E n w = match E.readSoup f c with
        | ok none => ({ w with out := w.out ++ (E.complaint f c).1, err := w.err ++ (E.complaint f c).2 }, ok none)
        | ok (some s) => (w, if s.faces = [] then exn "region boundary must not be empty" else ok (some ⟨.boundaryDefined, s⟩))
        | exn m => (w, exn m)
        | ub m => (w, ub m)) ∧
    (∀ f, Means n (.file f) → (E.readable n = false ∨ w.files n = none) →
      readRegion E n w = ({ w with err := w.err ++ ("failed to open file: ".toList ++ n ++ ['\n']) }, ok none)) ∧
    (Means n .unsupported → readRegion E n w = ({ w with err := w.err ++ "unsupported file format\n".toList }, ok none)) := by
  have names : ∀ {f}, Means n (.file f) → n ≠ ":empty:".toList ∧ n ≠ ":full:".toList ∧ HasFormat n f := by
    intro f h
    cases h with
    | file _ h => exact ⟨(format_not_empty h).1, (format_not_empty h).2, h⟩
  refine ⟨?_, ?_, ?_, ?_, ?_, ?_⟩
  · intro h; cases h with
    | empty h => unfold readRegion; rw [if_pos h]; rfl
  · intro h; cases h with
    | full h => subst h; unfold readRegion; rw [if_neg (by decide), if_pos rfl]; rfl
  · intro c h hr hc
    obtain ⟨h1, h2, h3⟩ := names h
    unfold readRegion
    rw [if_neg h1, if_neg h2, if_pos (kigumi_iff.mpr h3)]
    simp only [readFile, hr, hc]
    rcases E.readKigumi c with (_ | r) | m | m
    · simp [Act.bind, Act.cout, Act.cerr, Act.ret]
    · rfl
    · rfl
    · rfl
  · intro f c hk h hr hc
    obtain ⟨h1, h2, h3⟩ := names h
    unfold readRegion readTriangleSoup
    rw [if_neg h1, if_neg h2, if_neg (fun h4 => hk (format_unique h3 (kigumi_iff.mp h4))), soupFormat_some.mpr ⟨h3, hk⟩]
    unfold Act.bind
    simp only [readFile, hr, hc]
    rcases E.readSoup f c with (_ | s) | m | m
    · rfl
    · dsimp only [Outcome.bind, Act.lift]
      unfold Region.ofSoup
      by_cases hs : s.faces = []
      · simp [hs]
      · have : ¬ s.faces.length = 0 := fun h => hs (List.length_eq_zero_iff.mp h)
        simp [hs, Act.ret]
    · rfl
    · rfl
  · intro f h hno
    obtain ⟨h1, h2, h3⟩ := names h
    have hfile : ∀ {α : Type} (p : List X → Outcome (Option α)) (q : List X → List Char × List Char), readFile E n p q w = ({ w with err := w.err ++ ("failed to open file: ".toList ++ n ++ ['\n']) }, ok none) := by
      intro α p q
      unfold readFile
      split
      · next c h4 h5 => rcases hno with h6 | h6
                        · rw [h6] at h4; cases h4
                        · rw [h6] at h5; cases h5
      · rfl
    unfold readRegion
    rw [if_neg h1, if_neg h2]
    by_cases hk : f = .kigumi
    · subst hk
      rw [if_pos (kigumi_iff.mpr h3)]
      exact hfile _ _
    · rw [if_neg (fun h4 => hk (format_unique h3 (kigumi_iff.mp h4)))]
      unfold readTriangleSoup
      rw [soupFormat_some.mpr ⟨h3, hk⟩]
      unfold Act.bind
      dsimp only
      rw [hfile]
      rfl
  · intro h; cases h with
    | unsupported h1 h2 h3 =>
      unfold readRegion readTriangleSoup
      rw [if_neg h1, if_neg h2, if_neg (fun h4 => h3 .kigumi (kigumi_iff.mp h4)), (soupFormat_none (h3 .kigumi)).mpr h3]
      rfl

/-- The interpretation of output names: the format is determined by the extension, names without supported extension fail, in particular the names of
the two special regions. -/
theorem C53_write_unsupported (E : Env X P D B) (n : Name) (r : Region P D) (w : World X) (h : ∀ f, ¬ Means n (.file f)) :
    writeRegion E n r w = ({ w with err := w.err ++ "unsupported file format\n".toList }, ok false) := by
  rcases writeRegion_cases E n r with ⟨ps, hp, _⟩ | ⟨_, h'⟩
  · rcases hp with ⟨hp, _⟩ | ⟨f, _, hp, _⟩ <;> exact absurd (Means.file _ hp) (h _)
  · rw [h']; rfl

/-- The status is 0 exactly when the first argument is the name of a command and the command returns; otherwise it is 1, unless behaviour is undefined. -/
theorem C53_exit_status (E : Env X P D B) (args : List Name) (w : World X) :
    ((main E args w).2 = ok 0 ∨ (main E args w).2 = ok 1 ∨ ∃ m, (main E args w).2 = ub m) ∧
    ((main E args w).2 = ok 0 ↔ ∃ rest, (args = "boolean".toList :: rest ∧ (booleanCommand E rest w).2 = ok ()) ∨
      (args = "convert".toList :: rest ∧ (convertCommand E rest w).2 = ok ()) ∨ (args = "defects".toList :: rest ∧ (defectsCommand E rest w).2 = ok ())) := by
  refine ⟨main_status E args w, ?_, ?_⟩
  · intro h
    obtain ⟨rest, h⟩ := main_zero.mp (show main E args w = ((main E args w).1, ok 0) from by rw [← h])
    refine ⟨rest, ?_⟩
    rcases h with ⟨h1, h2⟩ | ⟨h1, h2⟩ | ⟨h1, h2⟩
    · exact Or.inl ⟨h1, by rw [h2]⟩
    · exact Or.inr (Or.inl ⟨h1, by rw [h2]⟩)
    · exact Or.inr (Or.inr ⟨h1, by rw [h2]⟩)
  · rintro ⟨rest, ⟨h1, h2⟩ | ⟨h1, h2⟩ | ⟨h1, h2⟩⟩
    · have := main_zero.mpr ⟨rest, Or.inl ⟨h1, show booleanCommand E rest w = ((booleanCommand E rest w).1, ok ()) from by rw [← h2]⟩⟩
      rw [this]
    · have := main_zero.mpr ⟨rest, Or.inr (Or.inl ⟨h1, show convertCommand E rest w = ((convertCommand E rest w).1, ok ()) from by rw [← h2]⟩)⟩
      rw [this]
    · have := main_zero.mpr ⟨rest, Or.inr (Or.inr ⟨h1, show defectsCommand E rest w = ((defectsCommand E rest w).1, ok ()) from by rw [← h2]⟩)⟩
      rw [this]

/-- An exception of a command, whatever its message, is printed and gives status 1. -/
theorem C53_exception_reported (E : Env X P D B) (rest : List Name) (w w' : World X) (m : String) (c : List Name → Act X Unit) (name : Name)
    (hc : (name, c) ∈ commands E) (h : c rest w = (w', exn m)) :
    main E (name :: rest) w = ({ w' with err := w'.err ++ ("error: ".toList ++ m.toList ++ ['\n']) }, ok 1) := by
  have run : ((c rest).bind fun _ => Act.ret 0) w = (w', (exn m : Outcome Nat)) := by unfold Act.bind; rw [h]
  unfold main
  dsimp only
  have hd : dispatch name rest (commands E) = (c rest).bind fun _ => Act.ret 0 := by
    unfold commands at hc ⊢
    rcases List.mem_cons.mp hc with hc | hc
    · cases hc; unfold dispatch; rw [if_pos rfl]
    · rcases List.mem_cons.mp hc with hc | hc
      · cases hc; unfold dispatch; rw [if_neg (by decide)]; unfold dispatch; rw [if_pos rfl]
      · cases List.mem_singleton.mp hc
        unfold dispatch; rw [if_neg (by decide)]; unfold dispatch; rw [if_neg (by decide)]; unfold dispatch; rw [if_pos rfl]
  rw [hd, run]
  rfl

theorem outputs_wanted {o : Options} {op : Op} {n : Name} : (op, some n) ∈ outputs o ↔ Wanted o (truth op) n := by
  have hK : truth .K = fun a b => a && b := by funext a b; revert a b; decide
  have hA : truth .A = fun a b => a || b := by funext a b; revert a b; decide
  have hL : truth .L = fun a b => a && !b := by funext a b; revert a b; decide
  have hJ : truth .J = fun a b => a != b := by funext a b; revert a b; decide
  constructor
  · intro h
    unfold outputs at h
    simp only [List.mem_cons, Prod.mk.injEq, List.not_mem_nil, or_false] at h
    rcases h with ⟨rfl, h⟩ | ⟨rfl, h⟩ | ⟨rfl, h⟩ | ⟨rfl, h⟩
    · rw [show truth Op.intersection = _ from hK]; exact .int h.symm
    · rw [show truth Op.union = _ from hA]; exact .uni h.symm
    · rw [show truth Op.difference = _ from hL]; exact .dif h.symm
    · rw [show truth Op.symmetricDifference = _ from hJ]; exact .sym h.symm
  · intro h
    have key : ∀ f, Wanted o f n → f = truth op → (op, some n) ∈ outputs o := by
      intro f hf he
      have e := fun a b => congrFun (congrFun he a) b
      unfold outputs
      cases hf with
      | int hx =>
        have : op = .K := by clear he h; cases op <;> first | rfl | exact absurd e (by decide)
        subst this; simp [hx, Op.intersection]
      | uni hx =>
        have : op = .A := by clear he h; cases op <;> first | rfl | exact absurd e (by decide)
        subst this; simp [hx, Op.union]
      | dif hx =>
        have : op = .L := by clear he h; cases op <;> first | rfl | exact absurd e (by decide)
        subst this; simp [hx, Op.difference]
      | sym hx =>
        have : op = .J := by clear he h; cases op <;> first | rfl | exact absurd e (by decide)
        subst this; simp [hx, Op.symmetricDifference]
    exact key _ h rfl

theorem lastOp_last (o : Options) (g : Name) : (lastOp (outputs o) g).map truth = last o g := by
  have hK : truth .K = fun a b => a && b := by funext a b; revert a b; decide
  have hA : truth .A = fun a b => a || b := by funext a b; revert a b; decide
  have hL : truth .L = fun a b => a && !b := by funext a b; revert a b; decide
  have hJ : truth .J = fun a b => a != b := by funext a b; revert a b; decide
  unfold last outputs
  by_cases h4 : o.sym = some g
  · simp [lastOp, h4, Op.symmetricDifference, hJ]
  · by_cases h3 : o.dif = some g
    · simp [lastOp, h4, h3, Op.difference, hL]
    · by_cases h2 : o.uni = some g
      · simp [lastOp, h4, h3, h2, Op.union, hA]
      · by_cases h1 : o.int = some g
        · simp [lastOp, h4, h3, h2, h1, Op.intersection, hK]
        · simp [lastOp, h4, h3, h2, h1]

/-- The boolean command ends with status 0 exactly when the options are valid, both operands can be read, the builder succeeds, and every requested
region can be computed and written to its file. -/
theorem C53_boolean_succeeds_iff (E : Env X P D B) (rest : List Name) (w : World X) :
    (main E ("boolean".toList :: rest) w).2 = ok 0 ↔ ∃ o a b bb v, E.parseBoolean rest = ok o ∧ Reads E w.files o.first a ∧ Reads E w.files o.second b ∧
      E.build a b = ok (bb, v) ∧ ∀ op n, Wanted o (truth op) n → ∃ r, E.eval bb op = ok r ∧ Writes E n r := by
  constructor
  · intro h
    obtain ⟨rest', h⟩ := main_zero.mp (show main E ("boolean".toList :: rest) w = ((main E ("boolean".toList :: rest) w).1, ok 0) from by rw [← h])
    rcases h with ⟨h1, h2⟩ | ⟨h1, h2⟩ | ⟨h1, h2⟩
    · injection h1 with _ h1; subst h1
      obtain ⟨o, a, b, bb, v, h3, h4, h5, h6, h7⟩ := booleanCommand_ok.mp h2
      exact ⟨o, a, b, bb, v, h3, h4, h5, h6, fun op n hw => (writeOutputs_ok h7).2.2.1 op n (outputs_wanted.mpr hw)⟩
    · exact absurd (List.cons.inj h1).1 (by decide)
    · exact absurd (List.cons.inj h1).1 (by decide)
  · rintro ⟨o, a, b, bb, v, h3, h4, h5, h6, h7⟩
    obtain ⟨w', h8⟩ := writeOutputs_succeeds (E := E) (b := bb) (l := outputs o) { w with out := w.out ++ progressText a b, err := w.err ++ warningLines v } fun op n hm => h7 op n (outputs_wanted.mp hm)
    have := main_zero.mpr ⟨rest, Or.inl ⟨rfl, booleanCommand_ok.mpr ⟨o, a, b, bb, v, h3, h4, h5, h6, h8⟩⟩⟩
    rw [this]

/-- After status 0 every file is as it was, or was requested and holds what the device took of the text of the region computed with the operator asked for.
The standard output has the lines about the progress, exactly if both operands have a boundary.
Standard error has the warnings, each exactly if its bit is set, and nothing else. -/
theorem C53_boolean_files (E : Env X P D B) (rest : List Name) (w w' : World X) (h : main E ("boolean".toList :: rest) w = (w', ok 0)) :
    ∃ o a b bb v, E.parseBoolean rest = ok o ∧ Reads E w.files o.first a ∧ Reads E w.files o.second b ∧ E.build a b = ok (bb, v) ∧
      (∀ g, match last o g with
        | none => w'.files g = w.files g
        | some f => ∃ op r ps, truth op = f ∧ E.eval bb op = ok r ∧ Prints E g r ps ∧ ps.2 = ok () ∧ w'.files g = some (ps.1.flatten.take (E.room g))) ∧
      w'.out = w.out ++ progressText a b ∧
      w'.err = w.err ++ ((if v &&& 1 ≠ 0 then "warning: the first mesh partially intersects with the second mesh\n".toList else []) ++
        (if v &&& 2 ≠ 0 then "warning: the second mesh partially intersects with the first mesh\n".toList else [])) := by
  obtain ⟨rest', h⟩ := main_zero.mp h
  rcases h with ⟨h1, h2⟩ | ⟨h1, h2⟩ | ⟨h1, h2⟩
  · injection h1 with _ h1; subst h1
    obtain ⟨o, a, b, bb, v, h3, h4, h5, h6, h7⟩ := booleanCommand_ok.mp h2
    obtain ⟨k1, k2, k3, k4⟩ := writeOutputs_ok h7
    refine ⟨o, a, b, bb, v, h3, h4, h5, h6, ?_, k2, k1⟩
    intro g
    have hg := k4 g
    rw [← lastOp_last]
    cases hl : lastOp (outputs o) g with
    | none => rw [hl] at hg; exact hg
    | some op =>
      rw [hl] at hg
      obtain ⟨r, ps, e1, e2, e3⟩ := hg
      obtain ⟨r', e4, -, qs, e5, e6, -⟩ := k3 op g (lastOp_mem hl)
      rw [e1] at e4; cases e4
      obtain rfl := prints_unique e5 e2
      exact ⟨op, r, qs, rfl, e1, e2, e6, e3⟩
  · exact absurd (List.cons.inj h1).1 (by decide)
  · exact absurd (List.cons.inj h1).1 (by decide)

/-- Whatever happens, a file that was not requested is not changed; and no file at all is changed unless both operands were read and combined. -/
theorem C53_boolean_frame (E : Env X P D B) (rest : List Name) (w : World X) (g : Name)
    (hg : ∀ o a b bv, E.parseBoolean rest = ok o → Reads E w.files o.first a → Reads E w.files o.second b → E.build a b = ok bv →
      ∀ f, ¬ Wanted o f g) :
    (main E ("boolean".toList :: rest) w).1.files g = w.files g := by
  have h1 := booleanCommand_frame E rest w (g := g) fun o a b bv h1 h2 h3 h4 op hm => hg o a b bv h1 h2 h3 h4 _ (outputs_wanted.mp hm)
  have hd : dispatch "boolean".toList rest (commands E) = (booleanCommand E rest).bind fun _ => Act.ret 0 := by
    unfold commands dispatch; rw [if_pos rfl]
  unfold main
  dsimp only
  rw [hd]
  revert h1
  unfold report Act.bind
  rcases booleanCommand E rest w with ⟨w1, ⟨⟩ | m | m⟩ <;> exact id

/-- When the options are refused, the usage text of the command and the message are printed, nothing else happens, and the status is 1. -/
theorem C53_usage (E : Env X P D B) (rest : List Name) (w : World X) (m : String) :
    (E.parseBoolean rest = exn m → main E ("boolean".toList :: rest) w = ({ w with err := w.err ++ E.booleanUsage ++ ("error: ".toList ++ m.toList ++ ['\n']) }, ok 1)) ∧
    (E.parseInOut rest = exn m → main E ("convert".toList :: rest) w = ({ w with err := w.err ++ E.convertUsage ++ ("error: ".toList ++ m.toList ++ ['\n']) }, ok 1)) ∧
    (E.parseIn rest = exn m → main E ("defects".toList :: rest) w = ({ w with err := w.err ++ E.defectsUsage ++ ("error: ".toList ++ m.toList ++ ['\n']) }, ok 1)) := by
  refine ⟨fun h => ?_, fun h => ?_, fun h => ?_⟩
  · exact C53_exception_reported E rest w { w with err := w.err ++ E.booleanUsage } m (booleanCommand E) "boolean".toList (by unfold commands; simp only [List.mem_cons, true_or, or_true]) (by unfold booleanCommand; rw [h]; rfl)
  · exact C53_exception_reported E rest w { w with err := w.err ++ E.convertUsage } m (convertCommand E) "convert".toList (by unfold commands; simp only [List.mem_cons, true_or, or_true]) (by unfold convertCommand; rw [h]; rfl)
  · exact C53_exception_reported E rest w { w with err := w.err ++ E.defectsUsage } m (defectsCommand E) "defects".toList (by unfold commands; simp only [List.mem_cons, true_or, or_true]) (by unfold defectsCommand; rw [h]; rfl)

/-- `convert`: status 0 exactly if the input can be read and the output written; then only the output file changes. Input and output may be the same file. -/
theorem C53_convert (E : Env X P D B) (rest : List Name) (w w' : World X) :
    main E ("convert".toList :: rest) w = (w', ok 0) ↔ ∃ i o r, E.parseInOut rest = ok (i, o) ∧ Reads E w.files i r ∧ Writes E o r ∧
      (∃ ps, Prints E o r ps ∧ w'.files o = some (ps.1.flatten.take (E.room o))) ∧ (∀ g, g ≠ o → w'.files g = w.files g) ∧ w'.err = w.err ∧ w'.out = w.out := by
  rw [main_zero]
  constructor
  · rintro ⟨r, ⟨h1, -⟩ | ⟨h1, h2⟩ | ⟨h1, -⟩⟩
    · exact absurd (List.cons.inj h1).1 (by decide)
    · injection h1 with _ h1; subst h1
      obtain ⟨i, o, r, h3, h4, h5, ⟨ps, h6, h7, h8⟩, h9⟩ := convertCommand_ok.mp h2
      exact ⟨i, o, r, h3, h4, h5, ⟨ps, h6, h7⟩, h8, h9⟩
    · exact absurd (List.cons.inj h1).1 (by decide)
  · rintro ⟨i, o, r, h3, h4, h5, ⟨ps, h6, h7⟩, h8, h9⟩
    exact ⟨rest, Or.inr (Or.inl ⟨rfl, convertCommand_ok.mpr ⟨i, o, r, h3, h4, h5, ⟨ps, h6, h7, h8⟩, h9⟩⟩)⟩

/-- Status 0 and enough room on the device: the file has the complete text. (Full claim: status 0 implies the complete text. It is false, see
`C53_full_claim_false`.) -/
theorem C53_complete_output_partial (E : Env X P D B) (rest : List Name) (w w' : World X) (h : main E ("convert".toList :: rest) w = (w', ok 0)) :
    ∃ i o r ps, E.parseInOut rest = ok (i, o) ∧ Reads E w.files i r ∧ Prints E o r ps ∧ ps.2 = ok () ∧
      (w'.files o = some ps.1.flatten ↔ ps.1.flatten.length ≤ E.room o) := by
  obtain ⟨i, o, r, h3, h4, ⟨-, qs, h5, h6, -⟩, ⟨ps, h7, h8⟩, -⟩ := (C53_convert E rest w w').mp h
  obtain rfl := prints_unique h5 h7
  refine ⟨i, o, r, qs, h3, h4, h7, h6, ?_⟩
  rw [h8]
  constructor
  · intro e
    injection e with e
    have := congrArg List.length e
    rw [List.length_take] at this
    omega
  · intro e
    rw [List.take_of_length_le e]

/-- As long as the buffer was not passed on, `good()` says nothing about the device: whether an output that fits into the buffer is reported as written does
not depend on how much the device takes. -/
theorem C53_buffered_output_unreported (E : Env X P D B) (cap : Nat) (hE : ∀ n k, E.flush n k = decide (cap < n + k)) (n : Name) (r : Region P D)
    (ps : List (List X) × Outcome Unit) (hp : Prints E n r ps) (hs : ps.1.flatten.length ≤ cap) (room : Name → Nat) :
    Writes { E with room := room } n r ↔ E.creatable n = true ∧ ps.2 = ok () := by
  have small : ∀ (room : Nat) (l : List (List X)), l.flatten.length ≤ cap → stream room E.flush l = ⟨[], l.flatten, false⟩ := by
    intro room l
    induction l using List.reverseRecOn with
    | nil => intro _; rfl
    | append_singleton l p ih =>
      intro hl
      have hl' : l.flatten.length + p.length ≤ cap := by simpa using hl
      rw [show stream room E.flush (l ++ [p]) = (stream room E.flush l).put room E.flush p by simp [stream], ih (by omega)]
      unfold OS.put
      rw [if_neg (by simp), if_neg (by rw [hE]; simp only [decide_eq_true_eq]; omega)]
      simp
  unfold Writes
  constructor
  · rintro ⟨h1, qs, h2, h3, -⟩
    have : qs = ps := prints_unique (E := E) h2 hp
    subst this
    exact ⟨h1, h3⟩
  · rintro ⟨h1, h2⟩
    exact ⟨h1, ps, hp, h2, by dsimp only; rw [small _ _ hs]⟩

/-- If the stream passes on every piece (or the text is larger than what the device takes at some point at which the buffer is passed on) the failure is
reported: with an unbuffered stream, success means the complete text. -/
theorem C53_unbuffered_reported (room : Nat) (ps : List (List X)) (hne : ps ≠ []) :
    (stream room (fun _ _ => true) ps).bad = false ↔ ps.flatten.length ≤ room := by
  constructor
  · intro h
    induction ps using List.reverseRecOn with
    | nil => exact absurd rfl hne
    | append_singleton l p ih =>
      have e : stream room (fun _ _ => true) (l ++ [p]) = (stream room (fun _ _ => true) l).put room (fun _ _ => true) p := by simp [stream]
      rw [e] at h
      unfold OS.put at h
      split at h
      · next hb => rw [hb] at h; cases h
      · next hb =>
        have h1 := (stream_inv room (fun _ _ => true) l).1 (by simpa using hb)
        rw [if_pos rfl] at h
        have h2 := of_decide_eq_false h
        rw [← List.append_assoc, h1] at h2
        simpa using h2
  · intro h
    cases hb : (stream room (fun _ _ => true) ps).bad with
    | false => rfl
    | true => have := ((stream_inv room (fun _ _ => true) ps).2 hb).2.2; omega

/-! ## With the builder of the library -/

/-- Operands that are empty or full give no warning. -/
theorem C53_no_warning_for_trivial_operands (mix : Soup P D → Soup P D → Outcome (Soup P (MixedData D) × Warnings)) (a b : Region P D)
    (h : a.kind ≠ .boundaryDefined ∨ b.kind ≠ .boundaryDefined) (bb : Builder P D) (v : Warnings) (hb : buildWith mix a b = ok (bb, v)) : v = 0 := by
  have hk : (a.isEmptyOrFull || b.isEmptyOrFull) = true := by
    unfold Region.isEmptyOrFull Region.isEmpty Region.isFull
    rcases h with h | h
    · cases ha : a.kind <;> simp [ha] at h ⊢
    · cases ha : b.kind <;> simp [ha] at h ⊢
  unfold buildWith at hb
  revert hb
  cases Builder.make (fun s t => (mix s t).bind fun m => ok m.1) a b with
  | ok x => intro hb; simp only [Outcome.bind, hk, if_true, ok.injEq, Prod.mk.injEq] at hb; exact hb.2.symm
  | exn m => intro hb; cases hb
  | ub m => intro hb; cases hb

/-- The warnings of two meshes are those of `Mix`. -/
theorem C53_warnings_of_mix (mix : Soup P D → Soup P D → Outcome (Soup P (MixedData D) × Warnings)) (a b : Region P D)
    (ha : a.kind = .boundaryDefined) (hb : b.kind = .boundaryDefined) (bb : Builder P D) (v : Warnings) (h : buildWith mix a b = ok (bb, v)) :
    ∃ m, mix a.boundary b.boundary = ok (m, v) ∧ bb.m = m := by
  have hk : (a.isEmptyOrFull || b.isEmptyOrFull) = false := by
    unfold Region.isEmptyOrFull Region.isEmpty Region.isFull
    simp [ha, hb]
  have hk1 : a.isEmptyOrFull = false := by revert hk; cases a.isEmptyOrFull <;> simp
  have hk2 : b.isEmptyOrFull = false := by revert hk; cases b.isEmptyOrFull <;> simp
  unfold buildWith Builder.make at h
  rw [hk1, hk2] at h
  cases hm : mix a.boundary b.boundary with
  | ok x =>
    simp [hm] at h
    obtain ⟨rfl, rfl⟩ := h
    exact ⟨x.1, rfl, rfl⟩
  | exn m => simp [hm] at h
  | ub m => simp [hm] at h

/-- From files to sets: if the operands that are read represent sets, every requested file gets the text of a region that represents the set asked for. -/
theorem C53_boolean_sets [DecidableEq P] {ar : Arrangement P Cell} (hconn : ar.Connected) (E : Env X P D (Builder P D))
    (mix : Soup P D → Soup P D → Outcome (Soup P (MixedData D) × Warnings))
    (hbuild : E.build = buildWith mix) (heval : E.eval = fun bb op => bb.run op true)
    (rest : List Name) (w w' : World X) (h : main E ("boolean".toList :: rest) w = (w', ok 0)) (χA χB : Cell → Bool)
    (hops : ∀ o a b, E.parseBoolean rest = ok o → Reads E w.files o.first a → Reads E w.files o.second b →
      (a.kind = .boundaryDefined → b.kind = .boundaryDefined → ∃ m v, mix a.boundary b.boundary = ok (m, v) ∧ m.data.length = m.faces.length ∧ Classified ar m χA χB) ∧
      RegionInv a ∧ RegionInv b ∧ a.boundary.WF ∧ b.boundary.WF ∧ Represents ar a χA ∧ Represents ar b χB) :
    ∃ o, E.parseBoolean rest = ok o ∧ ∀ g f, last o g = some f → ∃ r ps, Represents ar r (fun c => f (χA c) (χB c)) ∧ RegionInv r ∧ Prints E g r ps ∧
      w'.files g = some (ps.1.flatten.take (E.room g)) := by
  obtain ⟨o, a, b, bb, v, h1, h2, h3, h4, h5, -, -⟩ := C53_boolean_files E rest w w' h
  obtain ⟨hm, ia, ib, wa, wb, hA, hB⟩ := hops o a b h1 h2 h3
  refine ⟨o, h1, ?_⟩
  intro g f hl
  have hg := h5 g
  rw [hl] at hg
  obtain ⟨op, r, ps, e1, e2, e3, -, e4⟩ := hg
  obtain ⟨bb', r', k1, k2, k3, k4, -⟩ := C05_boolean_result_correct hconn (fun s t => (mix s t).bind fun m => ok m.1) (a := a) (b := b) (χA := χA) (χB := χB)
    (fun ha hb => by
      obtain ⟨m, v, m1, m2, m3⟩ := hm ha hb
      exact ⟨m, by rw [m1]; rfl, m2, m3⟩) ia ib wa wb hA hB op true
  have hbb : bb = bb' := by
    rw [hbuild] at h4
    unfold buildWith at h4
    rw [k1] at h4
    simp only [Outcome.bind] at h4
    split at h4
    · injection h4 with h4; exact (Prod.mk.inj h4).1.symm
    · revert h4
      rcases mix a.boundary b.boundary with ⟨m, u⟩ | m | m
      · intro h4; injection h4 with h4; exact (Prod.mk.inj h4).1.symm
      · intro h4; cases h4
      · intro h4; cases h4
  rw [heval, hbb] at e2
  dsimp only at e2
  rw [k2] at e2
  cases e2
  subst e1
  exact ⟨r, ps, k3, k4, e3, e4⟩

/-! ## The defects command -/

/-- The line for one kind of defect. -/
def defectLine (n : Nat) (what : String) : List Char := if n = 0 then [] else (toString n).toList ++ what.toList

theorem printDefects_run (c : Fin 8 → Nat) (l : List (Fin 8 × String)) (w : World X) :
    printDefects c l w = ({ w with out := w.out ++ (l.map fun x => defectLine (c x.1) x.2).flatten }, ok ()) := by
  induction l generalizing w with
  | nil => unfold printDefects Act.ret; simp
  | cons x l ih =>
    obtain ⟨k, t⟩ := x
    have step : Act.when' (c k != 0) (Act.cout ((toString (c k)).toList ++ t.toList)) w = ({ w with out := w.out ++ defectLine (c k) t }, ok ()) := by
      unfold Act.when' defectLine
      by_cases hn : c k = 0
      · simp [hn, Act.ret]
      · simp [hn, Act.cout]
    unfold printDefects Act.bind
    rw [step]
    dsimp only
    rw [ih]
    simp

/-- `defects` ends with status 0 exactly when the mesh can be read and the searches return, also when defects are found. It prints, in a fixed order, one line
for each kind of defect that is present, with the number, and nothing for the kinds that are not; files are not touched. -/
theorem C69_defects (E : Env X P D B) (rest : List Name) (w w' : World X) :
    main E ("defects".toList :: rest) w = (w', ok 0) ↔ ∃ i r, ∃ c : Fin 8 → Nat, E.parseIn rest = ok i ∧ Reads E w.files i r ∧
      E.defects r.boundary = ok c ∧ w'.files = w.files ∧ w'.err = w.err ∧
      w'.out = w.out ++ (defectLine (c 0) " isolated vertices\n" ++ defectLine (c 1) " non-manifold vertices\n" ++ defectLine (c 2) " boundary edges\n" ++
        defectLine (c 3) " inconsistent edges\n" ++ defectLine (c 4) " non-manifold edges\n" ++ defectLine (c 5) " trivial degenerate faces\n" ++
        defectLine (c 6) " non-trivial degenerate faces\n" ++ defectLine (c 7) " overlapping faces\n") := by
  rw [main_zero]
  constructor
  · rintro ⟨r, ⟨h1, -⟩ | ⟨h1, -⟩ | ⟨h1, h2⟩⟩
    · exact absurd (List.cons.inj h1).1 (by decide)
    · exact absurd (List.cons.inj h1).1 (by decide)
    · injection h1 with _ h1; subst h1
      unfold defectsCommand at h2
      rw [Act.bind_ok] at h2
      obtain ⟨w1, i, k1, h2⟩ := h2
      obtain ⟨rfl, p1⟩ := parseOr_ok.mp k1
      rw [Act.bind_ok] at h2
      obtain ⟨w2, r, k2, h2⟩ := h2
      obtain ⟨rfl, p2⟩ := readOrThrow_ok.mp k2
      rw [Act.bind_ok] at h2
      obtain ⟨w3, c, k3, h2⟩ := h2
      obtain ⟨rfl, k4⟩ : w2 = w3 ∧ E.defects r.boundary = ok c := Prod.mk.inj k3
      rw [printDefects_run] at h2
      obtain ⟨rfl, -⟩ := Prod.mk.inj h2
      exact ⟨i, r, c, p1, p2, k4, rfl, rfl, by simp [defectTexts]⟩
  · rintro ⟨i, r, c, p1, p2, g1, g2, g3, g4⟩
    refine ⟨rest, Or.inr (Or.inr ⟨rfl, ?_⟩)⟩
    unfold defectsCommand
    rw [Act.bind_ok]
    refine ⟨w, i, parseOr_ok.mpr ⟨rfl, p1⟩, ?_⟩
    rw [Act.bind_ok]
    refine ⟨w, r, readOrThrow_ok.mpr ⟨rfl, p2⟩, ?_⟩
    rw [Act.bind_ok]
    refine ⟨w, c, by rw [Act.lift, g1], ?_⟩
    rw [printDefects_run]
    cases w; cases w'
    simp only at g2 g3 g4
    subst g2 g3 g4
    simp [defectTexts]

theorem Act.bind_world {α β : Type} {x : Act X α} {f : α → Act X β} {w : World X} {Q : World X → Prop} (hx : Q (x w).1) (hf : ∀ a w1, x w = (w1, ok a) → Q (f a w1).1) : Q (x.bind f w).1 := by
  unfold Act.bind
  split
  · next w1 a h => exact hf a w1 h
  · next w1 m h => rw [h] at hx; exact hx
  · next w1 m h => rw [h] at hx; exact hx

theorem readOrThrow_out (E : Env X P D B) (f : Name) (w : World X) : (readOrThrow E f w).1.out = w.out ∨ ∃ t, Complains E w.files f t ∧ (readOrThrow E f w).1.out = w.out ++ t := by
  unfold readOrThrow
  refine Act.bind_world (Q := fun v => v.out = w.out ∨ ∃ t, Complains E w.files f t ∧ v.out = w.out ++ t) (readRegion_files E f w).2 fun a w1 h => ?_
  have h2 := (readRegion_files E f w).2
  rw [h] at h2
  cases a <;> exact h2

/-- The standard output has not been changed, or it has what the reader printed about the file it refused. -/
def OnlyComplaint (E : Env X P D B) (rest : List Name) (w w' : World X) : Prop :=
  w'.out = w.out ∨ ∃ i t, E.parseIn rest = ok i ∧ Complains E w.files i t ∧ w'.out = w.out ++ t

/-- If it does not end with status 0, it has printed nothing to the standard output, except what the reader of the format says about a file that it refuses, and files are not touched: a list of defects is complete or it is not there. -/
theorem C69_all_or_nothing (E : Env X P D B) (rest : List Name) (w : World X) (h : (main E ("defects".toList :: rest) w).2 ≠ ok 0) :
    OnlyComplaint E rest w (main E ("defects".toList :: rest) w).1 ∧ (main E ("defects".toList :: rest) w).1.files = w.files := by
  have key : (defectsCommand E rest w).2 = ok () ∨ (OnlyComplaint E rest w (defectsCommand E rest w).1 ∧ (defectsCommand E rest w).1.files = w.files) := by
    unfold defectsCommand
    by_cases hp : ∃ i, E.parseIn rest = ok i
    · obtain ⟨i, hi⟩ := hp
      rw [hi]
      have e1 : ∀ f : Name → Act X Unit, (parseOr E.defectsUsage (ok i)).bind f w = f i w := fun f => rfl
      rw [e1]
      have e2 : OnlyComplaint E rest w (readOrThrow E i w).1 ∧ (readOrThrow E i w).1.files = w.files :=
        ⟨(readOrThrow_out E i w).imp_right fun ⟨t, h1, h2⟩ => ⟨i, t, hi, h1, h2⟩, readOrThrow_files E i w⟩
      unfold Act.bind
      split
      · next w1 r hr =>
        rw [hr] at e2
        have e3 : ∀ o : Outcome (Fin 8 → Nat), (((Act.lift o).bind fun c => printDefects c defectTexts) w1).2 = ok () ∨
            (OnlyComplaint E rest w (((Act.lift o).bind fun c => printDefects c defectTexts) w1).1 ∧ (((Act.lift o).bind fun c => printDefects c defectTexts) w1).1.files = w.files) := by
          intro o
          cases o with
          | ok c =>
            left
            show (printDefects c defectTexts w1).2 = ok ()
            rw [printDefects_run]
          | exn m => exact Or.inr e2
          | ub m => exact Or.inr e2
        exact e3 _
      · next w1 m hr => rw [hr] at e2; exact Or.inr e2
      · next w1 m hr => rw [hr] at e2; exact Or.inr e2
    · right
      cases ho : E.parseIn rest with
      | ok i => exact absurd ⟨i, ho⟩ hp
      | exn m => exact ⟨Or.inl rfl, rfl⟩
      | ub m => exact ⟨Or.inl rfl, rfl⟩
  have e : main E ("defects".toList :: rest) w = report (((defectsCommand E rest).bind fun _ => Act.ret 0) w) := by
    show report (dispatch "defects".toList rest [("boolean".toList, booleanCommand E), ("convert".toList, convertCommand E), ("defects".toList, defectsCommand E)] w) = _
    unfold dispatch; rw [if_neg (by decide)]; unfold dispatch; rw [if_neg (by decide)]; unfold dispatch; rw [if_pos rfl]
  rw [e] at h ⊢
  revert h
  revert key
  unfold Act.bind
  rcases defectsCommand E rest w with ⟨w1, ⟨⟩ | m | m⟩
  · intro _ h; exact absurd rfl h
  · intro key _
    rcases key with key | key
    · cases key
    · exact key
  · intro key _
    rcases key with key | key
    · cases key
    · exact key

/-! ## A small world -/

/-- Surroundings in which a mesh file is one character per face, the builder remembers its operands, results have one face for each of a few operators, and the
file `full.obj` is on a device that takes two characters. -/
def demo : Env Char Nat Unit (Region Nat Unit × Region Nat Unit) where
  readable _ := true
  creatable n := n != "no.obj".toList
  room n := if n = "full.obj".toList then 2 else 1000
  flush n k := decide (8191 < n + k)
  readSoup _ c := if c = ['?'] then ok none else ok (some ⟨[0, 1, 2], c.map fun _ => ⟨0, 1, 2⟩, c.map fun _ => ()⟩)
  readKigumi c := if c = ['E'] then ok (some Region.emptyRegion) else ok none
  complaint f c := if f = .off then ("invalid face line: ".toList ++ c ++ ['\n'], []) else ([], "invalid face line: ".toList ++ c ++ ['\n'])
  soupPieces _ s := (s.faces.map fun _ => ['f'], ok ())
  kigumiPieces r := ([['k'], if r.kind = .boundaryDefined then ['b'] else []], ok ())
  parseBoolean
    | [a, b] => ok ⟨a, b, none, none, none, none⟩
    | [a, b, c] => ok ⟨a, b, some c, none, none, none⟩
    | [a, b, c, d] => ok ⟨a, b, some c, none, none, some d⟩
    | _ => exn "the option '--second' is required but missing"
  parseIn
    | [a] => ok a
    | _ => exn "the option '--in' is required but missing"
  parseInOut
    | [a, b] => ok (a, b)
    | _ => exn "the option '--out' is required but missing"
  booleanUsage := ['u']
  convertUsage := ['u']
  defectsUsage := ['u']
  mainUsage := ['U']
  build a b := ok ((a, b), if a.kind = .boundaryDefined ∧ b.kind = .boundaryDefined then 2 else 0)
  stages _ _ := 0
  eval b op := match op with
    | .K => ok ⟨.boundaryDefined, ⟨[], [⟨0, 1, 2⟩], [()]⟩⟩
    | .J => ok ⟨.boundaryDefined, ⟨[], [⟨0, 1, 2⟩, ⟨0, 1, 2⟩, ⟨0, 1, 2⟩], [(), (), ()]⟩⟩
    | _ => ok b.1
  defects _ := ok fun k => if k = 2 then 3 else if k = 7 then 12 else 0

def demoWorld : World Char := ⟨fun n => if n = "a.obj".toList then some ['x'] else if n = "b.off".toList then some ['x', 'y', 'z'] else if n = "e.kigumi".toList then some ['E'] else if n = "q.off".toList ∨ n = "q.ply".toList then some ['?'] else none, [], []⟩

/-- Two outputs, the right operators, one warning, status 0. -/
example : (main demo ["boolean".toList, "a.obj".toList, "b.off".toList, "i.obj".toList, "s.ply".toList] demoWorld).2 = ok 0 ∧
    (main demo ["boolean".toList, "a.obj".toList, "b.off".toList, "i.obj".toList, "s.ply".toList] demoWorld).1.files "i.obj".toList = some ['f'] ∧
    (main demo ["boolean".toList, "a.obj".toList, "b.off".toList, "i.obj".toList, "s.ply".toList] demoWorld).1.files "s.ply".toList = some ['f', 'f', 'f'] ∧
    (main demo ["boolean".toList, "a.obj".toList, "b.off".toList, "i.obj".toList, "s.ply".toList] demoWorld).1.files "a.obj".toList = some ['x'] ∧
    (main demo ["boolean".toList, "a.obj".toList, "b.off".toList, "i.obj".toList, "s.ply".toList] demoWorld).1.err = secondWarning ∧
    (main demo ["boolean".toList, "a.obj".toList, "b.off".toList, "i.obj".toList, "s.ply".toList] demoWorld).1.out =
      "Finding face pairs...\nFinding symbolic intersections...\nConstructing intersection points...\nTriangulating...\nConstructing mixed mesh...\nLocal classification...\nGlobal classification...\n".toList := by decide +kernel

/-- The same file for two outputs: the symmetric difference remains. -/
example : (main demo ["boolean".toList, ":full:".toList, "e.kigumi".toList, "i.obj".toList, "i.obj".toList] demoWorld).1.files "i.obj".toList = some ['f', 'f', 'f'] ∧
    (main demo ["boolean".toList, ":full:".toList, "e.kigumi".toList, "i.obj".toList, "i.obj".toList] demoWorld).1.err = [] ∧
    (main demo ["boolean".toList, ":full:".toList, "e.kigumi".toList, "i.obj".toList, "i.obj".toList] demoWorld).1.out = [] := by decide +kernel

/-- Failures: a name with another extension, capital letters, a missing file, a file that cannot be created, no command, an unknown command. -/
example : (main demo ["convert".toList, "a.stl".toList, "o.obj".toList] demoWorld).2 = ok 1 ∧ (main demo ["convert".toList, "a.OBJ".toList, "o.obj".toList] demoWorld).2 = ok 1 ∧
    (main demo ["convert".toList, "c.obj".toList, "o.obj".toList] demoWorld).2 = ok 1 ∧ (main demo ["convert".toList, "a.obj".toList, "no.obj".toList] demoWorld).2 = ok 1 ∧
    (main demo ["convert".toList, "a.obj".toList, ":empty:".toList] demoWorld).2 = ok 1 ∧
    (main demo [] demoWorld).2 = ok 1 ∧ (main demo ["bool".toList] demoWorld).2 = ok 1 ∧
    (main demo ["convert".toList, "c.obj".toList, "o.obj".toList] demoWorld).1.err = "failed to open file: c.obj\nerror: reading failed: c.obj\n".toList := by decide +kernel

/-- An option is missing: the usage text, then the message. -/
example : main demo ["boolean".toList, "a.obj".toList] ⟨fun _ => none, ['o'], ['e']⟩ = (⟨fun _ => none, ['o'], "euerror: the option '--second' is required but missing\n".toList⟩, ok 1) :=
  (C53_usage demo ["a.obj".toList] ⟨fun _ => none, ['o'], ['e']⟩ "the option '--second' is required but missing").1 rfl

/-- A mesh with two kinds of defects. -/
example : (main demo ["defects".toList, "a.obj".toList] demoWorld).2 = ok 0 ∧ (main demo ["defects".toList, "a.obj".toList] demoWorld).1.out = "3 boundary edges\n12 overlapping faces\n".toList := by
  decide +kernel

/-- A file that the OFF reader refuses: what it says goes where the list of defects would be. The PLY reader uses the standard error output. -/
example : (main demo ["defects".toList, "q.off".toList] demoWorld).2 = ok 1 ∧ (main demo ["defects".toList, "q.off".toList] demoWorld).1.out = "invalid face line: ?\n".toList ∧
    (main demo ["defects".toList, "q.off".toList] demoWorld).1.err = "error: reading failed: q.off\n".toList ∧
    (main demo ["defects".toList, "q.ply".toList] demoWorld).2 = ok 1 ∧ (main demo ["defects".toList, "q.ply".toList] demoWorld).1.out = [] ∧
    (main demo ["defects".toList, "q.ply".toList] demoWorld).1.err = "invalid face line: ?\nerror: reading failed: q.ply\n".toList := by decide +kernel

/-- The full claim fails: a device that takes two of the three characters, and status 0 with nothing printed. -/
theorem C53_full_claim_false :
    ¬ ∀ (E : Env Char Nat Unit (Region Nat Unit × Region Nat Unit)) (rest : List Name) (w w' : World Char), main E ("convert".toList :: rest) w = (w', ok 0) →
      ∃ i o r ps, E.parseInOut rest = ok (i, o) ∧ Reads E w.files i r ∧ Prints E o r ps ∧ w'.files o = some ps.1.flatten := by
  intro h
  have h0 : main demo ("convert".toList :: ["b.off".toList, "full.obj".toList]) demoWorld = ((main demo ("convert".toList :: ["b.off".toList, "full.obj".toList]) demoWorld).1, ok 0) :=
    Prod.ext rfl (by decide +kernel)
  obtain ⟨i, o, r, ps, h1, h2, h3, h4⟩ := h demo _ _ _ h0
  obtain ⟨i', o', r', ps', k1, k2, k3, -, k4⟩ := C53_complete_output_partial demo _ _ _ h0
  rw [h1] at k1; cases k1
  obtain rfl := reads_unique h2 k2
  obtain rfl := prints_unique h3 k3
  have hlen := k4.mp h4
  cases h1
  -- the region read has three faces
  have hr : Reads demo demoWorld.files "b.off".toList ⟨.boundaryDefined, ⟨[0, 1, 2], [⟨0, 1, 2⟩, ⟨0, 1, 2⟩, ⟨0, 1, 2⟩], [(), (), ()]⟩⟩ :=
    Or.inr (Or.inr ⟨['x', 'y', 'z'], rfl, by decide, Or.inr ⟨.off, _, by decide, ⟨['b'], by decide⟩, by decide, by simp, rfl⟩⟩)
  obtain rfl := reads_unique h2 hr
  have hp : Prints demo "full.obj".toList ⟨.boundaryDefined, ⟨[0, 1, 2], [⟨0, 1, 2⟩, ⟨0, 1, 2⟩, ⟨0, 1, 2⟩], [(), (), ()]⟩⟩ ([['f'], ['f'], ['f']], ok ()) :=
    Or.inr ⟨.obj, by decide, ⟨"full".toList, by decide⟩, rfl⟩
  obtain rfl := prints_unique h3 hp
  exact absurd hlen (by decide)

/-- Surroundings with the builder of the library: OBJ files hold the tetrahedron, OFF files its complement. -/
def tetraEnv : Env Char Nat Unit (Builder Nat Unit) where
  readable _ := true
  creatable _ := true
  room _ := 1000
  flush n k := decide (8191 < n + k)
  readSoup f _ := ok (some (if f = .obj then tetraRegion.boundary else (complement tetraRegion).boundary))
  readKigumi _ := ok none
  complaint _ _ := ([], [])
  soupPieces _ s := (s.faces.map fun _ => ['f'], ok ())
  kigumiPieces r := ([if r.kind = .full then ['F'] else ['?']], ok ())
  parseBoolean
    | [a, b, c] => ok ⟨a, b, none, some c, none, none⟩
    | _ => exn "usage"
  parseIn _ := exn "usage"
  parseInOut _ := exn "usage"
  booleanUsage := []
  convertUsage := []
  defectsUsage := []
  mainUsage := []
  build := buildWith fun _ _ => ok (tetraMixed, 0)
  stages _ _ := 0
  eval bb op := bb.run op true
  defects _ := ok fun _ => 0

/-- The hypotheses of `C53_boolean_sets` hold for the tetrahedron and its complement, and the union is the full region. -/
example : ∃ w', main tetraEnv ["boolean".toList, "a.obj".toList, "b.off".toList, "u.kigumi".toList] demoWorld = (w', ok 0) ∧ w'.files "u.kigumi".toList = some ['F'] ∧
    ∃ o, tetraEnv.parseBoolean ["a.obj".toList, "b.off".toList, "u.kigumi".toList] = ok o ∧ ∀ g f, last o g = some f → ∃ r ps,
      Represents tetra r (fun c => f (id c) (!c)) ∧ RegionInv r ∧ Prints tetraEnv g r ps ∧ w'.files g = some (ps.1.flatten.take (tetraEnv.room g)) := by
  refine ⟨(main tetraEnv ["boolean".toList, "a.obj".toList, "b.off".toList, "u.kigumi".toList] demoWorld).1, Prod.ext rfl (by decide +kernel), by decide +kernel, ?_⟩
  refine C53_boolean_sets tetra_connected tetraEnv (fun _ _ => ok (tetraMixed, 0)) rfl rfl ["a.obj".toList, "b.off".toList, "u.kigumi".toList] demoWorld _ (Prod.ext rfl (by decide +kernel)) id not ?_
  intro o a b ho ha hb
  cases ho
  have ra : Reads tetraEnv demoWorld.files "a.obj".toList tetraRegion :=
    Or.inr (Or.inr ⟨['x'], rfl, by decide, Or.inr ⟨.obj, _, by decide, ⟨['a'], by decide⟩, rfl, by decide, rfl⟩⟩)
  have rb : Reads tetraEnv demoWorld.files "b.off".toList (complement tetraRegion) :=
    Or.inr (Or.inr ⟨['x', 'y', 'z'], rfl, by decide, Or.inr ⟨.off, _, by decide, ⟨['b'], by decide⟩, rfl, by decide, rfl⟩⟩)
  obtain rfl := reads_unique ha ra
  obtain rfl := reads_unique hb rb
  exact ⟨fun _ _ => ⟨tetraMixed, 0, rfl, rfl, tetraMixed_classified⟩, by simp [RegionInv, tetraRegion], by simp [RegionInv, tetraRegion, complement, flipSoup],
    by unfold Soup.WF; decide, by unfold Soup.WF; decide, tetraRegion_represents, tetraRegion_complement_represents⟩

end Kigumi.Props
