import Verif.Spec.Cli
import Verif.Tactics
import Mathlib.Data.List.Induction
/-!
# Facts about the command line program
-/
namespace Kigumi.Cli
open Outcome Spec.Cli
open Global (Warnings)
variable {X P D B α β : Type}

theorem Act.bind_ok {x : Act X α} {f : α → Act X β} {w w' : World X} {b : β} :
    x.bind f w = (w', ok b) ↔ ∃ w1 a, x w = (w1, ok a) ∧ f a w1 = (w', ok b) := by
  unfold Act.bind
  constructor
  · intro h
    split at h
    · next w1 a hx => exact ⟨w1, a, hx, h⟩
    · cases h
    · cases h
  · rintro ⟨w1, a, hx, h⟩
    rw [hx]; exact h

/-- Something that holds of the files after each part holds of the files after the whole. -/
theorem Act.bind_files {x : Act X α} {f : α → Act X β} {w : World X} {Q : (Name → Option (List X)) → Prop}
    (hx : Q (x w).1.files) (hf : ∀ a w1, (x w) = (w1, ok a) → Q (f a w1).1.files) : Q (x.bind f w).1.files := by
  unfold Act.bind
  split
  · next w1 a h => exact hf a w1 h
  · next w1 m h => rw [h] at hx; exact hx
  · next w1 m h => rw [h] at hx; exact hx

theorem endsWith_iff {n e : Name} : endsWith n e = true ↔ ∃ stem, n = stem ++ e := by
  unfold endsWith
  rw [List.isSuffixOf_iff_suffix]
  exact ⟨fun ⟨s, h⟩ => ⟨s, h.symm⟩, fun ⟨s, h⟩ => ⟨s, h.symm⟩⟩

theorem format_unique {n : Name} {f g : Format} (hf : HasFormat n f) (hg : HasFormat n g) : f = g := by
  obtain ⟨s, hs⟩ := hf
  obtain ⟨t, ht⟩ := hg
  have h1 : ext f <:+ n := ⟨s, hs.symm⟩
  have h2 : ext g <:+ n := ⟨t, ht.symm⟩
  have h3 := List.suffix_or_suffix_of_suffix h1 h2
  revert h3
  cases f <;> cases g <;> decide

theorem format_not_empty {n : Name} {f : Format} (hf : HasFormat n f) : n ≠ ":empty:".toList ∧ n ≠ ":full:".toList := by
  obtain ⟨s, hs⟩ := hf
  have h1 : ext f <:+ n := ⟨s, hs.symm⟩
  constructor
  · rintro rfl; revert h1; cases f <;> decide
  · rintro rfl; revert h1; cases f <;> decide

theorem soupFormat_some {n : Name} {f : Format} : soupFormat n = some f ↔ HasFormat n f ∧ f ≠ .kigumi := by
  constructor
  · intro h
    unfold soupFormat at h
    split at h
    · next h1 => cases h; exact ⟨endsWith_iff.mp h1, by decide⟩
    · split at h
      · next h1 => cases h; exact ⟨endsWith_iff.mp h1, by decide⟩
      · split at h
        · next h1 => cases h; exact ⟨endsWith_iff.mp h1, by decide⟩
        · cases h
  · rintro ⟨h, hk⟩
    have no : ∀ g, g ≠ f → ¬ endsWith n (ext g) = true := fun g hg hn => hg (format_unique (endsWith_iff.mp hn) h)
    have yes : endsWith n (ext f) = true := endsWith_iff.mpr h
    unfold soupFormat
    cases f with
    | kigumi => exact absurd rfl hk
    | obj => exact if_pos yes
    | off => exact (if_neg (no .obj (by decide))).trans (if_pos yes)
    | ply => exact (if_neg (no .obj (by decide))).trans ((if_neg (no .off (by decide))).trans (if_pos yes))

theorem soupFormat_none {n : Name} (hk : ¬ HasFormat n .kigumi) : soupFormat n = none ↔ ∀ f, ¬ HasFormat n f := by
  constructor
  · intro h f hf
    by_cases e : f = .kigumi
    · subst e; exact hk hf
    · rw [soupFormat_some.mpr ⟨hf, e⟩] at h; cases h
  · intro h
    cases hs : soupFormat n with
    | none => rfl
    | some f => exact absurd (soupFormat_some.mp hs).1 (h f)

/-! ## Reading -/

/-- The region a name stands for, given the files. -/
def Reads (E : Env X P D B) (files : Name → Option (List X)) (n : Name) (a : Region P D) : Prop :=
  (n = ":empty:".toList ∧ a = Region.emptyRegion) ∨ (n = ":full:".toList ∧ a = Region.fullRegion) ∨
  ∃ c, E.readable n = true ∧ files n = some c ∧ ((HasFormat n .kigumi ∧ E.readKigumi c = ok (some a)) ∨
    ∃ fmt s, fmt ≠ .kigumi ∧ HasFormat n fmt ∧ E.readSoup fmt c = ok (some s) ∧ s.faces ≠ [] ∧ a = ⟨.boundaryDefined, s⟩)

theorem readFile_some {E : Env X P D B} {f : Name} {parse : List X → Outcome (Option α)} {tells : List X → List Char × List Char} {w w' : World X} {a : α} :
    readFile E f parse tells w = (w', ok (some a)) ↔ w' = w ∧ E.readable f = true ∧ ∃ c, w.files f = some c ∧ parse c = ok (some a) := by
  unfold readFile
  constructor
  · intro h
    split at h
    · next c h1 h2 =>
      split at h
      · simp [Act.bind, Act.cout, Act.cerr, Act.ret] at h
      · obtain ⟨rfl, h3⟩ := Prod.mk.inj h
        exact ⟨rfl, h1, c, h2, h3⟩
    · simp [Act.bind, Act.cerr, Act.ret] at h
  · rintro ⟨rfl, h1, c, h2, h3⟩
    simp [h1, h2, h3]

/-- A text format, a file of this format that its reader refuses, and what the reader prints to the standard output. -/
def Complains (E : Env X P D B) (files : Name → Option (List X)) (n : Name) (t : List Char) : Prop :=
  ∃ fmt c, fmt ≠ .kigumi ∧ HasFormat n fmt ∧ E.readable n = true ∧ files n = some c ∧ E.readSoup fmt c = ok none ∧ t = (E.complaint fmt c).1

theorem readFile_files (E : Env X P D B) (f : Name) (parse : List X → Outcome (Option α)) (tells : List X → List Char × List Char) (w : World X) :
    (readFile E f parse tells w).1.files = w.files ∧ ((readFile E f parse tells w).1.out = w.out ∨
      ∃ c, E.readable f = true ∧ w.files f = some c ∧ parse c = ok none ∧ (readFile E f parse tells w).1.out = w.out ++ (tells c).1) := by
  unfold readFile
  split
  · next c h1 h2 =>
    split
    · next h3 => exact ⟨by simp [Act.bind, Act.cout, Act.cerr, Act.ret], Or.inr ⟨c, h1, h2, h3, by simp [Act.bind, Act.cout, Act.cerr, Act.ret]⟩⟩
    · exact ⟨rfl, Or.inl rfl⟩
  · simp [Act.bind, Act.cerr, Act.ret]

theorem readTriangleSoup_files (E : Env X P D B) (f : Name) (w : World X) :
    (readTriangleSoup E f w).1.files = w.files ∧ ((readTriangleSoup E f w).1.out = w.out ∨ ∃ t, Complains E w.files f t ∧ (readTriangleSoup E f w).1.out = w.out ++ t) := by
  unfold readTriangleSoup
  cases hf : soupFormat f with
  | some fmt =>
    obtain ⟨h1, h2⟩ := readFile_files E f (E.readSoup fmt) (E.complaint fmt) w
    refine ⟨h1, h2.imp_right ?_⟩
    rintro ⟨c, h3, h4, h5, h6⟩
    exact ⟨_, ⟨fmt, c, (soupFormat_some.mp hf).2, (soupFormat_some.mp hf).1, h3, h4, h5, rfl⟩, h6⟩
  | none => simp [Act.bind, Act.cerr, Act.ret]

theorem readRegion_files (E : Env X P D B) (f : Name) (w : World X) :
    (readRegion E f w).1.files = w.files ∧ ((readRegion E f w).1.out = w.out ∨ ∃ t, Complains E w.files f t ∧ (readRegion E f w).1.out = w.out ++ t) := by
  unfold readRegion
  split
  · exact ⟨rfl, Or.inl rfl⟩
  · split
    · exact ⟨rfl, Or.inl rfl⟩
    · split
      · obtain ⟨h1, h2⟩ := readFile_files E f E.readKigumi (fun _ => ([], [])) w
        refine ⟨h1, Or.inl (h2.elim id ?_)⟩
        rintro ⟨c, -, -, -, h6⟩
        rw [h6, List.append_nil]
      · have h := readTriangleSoup_files E f w
        revert h
        unfold Act.bind
        generalize readTriangleSoup E f w = x
        rcases x with ⟨w1, _ | m | m⟩
        · rename_i o
          cases o with
          | none => exact id
          | some s =>
            dsimp only [Act.lift]
            cases Region.ofSoup s <;> exact id
        · exact id
        · exact id

theorem ofSoup_ok {s : Soup P D} {a : Region P D} : Region.ofSoup s = ok a ↔ s.faces ≠ [] ∧ a = ⟨.boundaryDefined, s⟩ := by
  unfold Region.ofSoup
  split
  · next h => simp [List.length_eq_zero_iff.mp h]
  · next h =>
    have : s.faces ≠ [] := fun h' => h (List.length_eq_zero_iff.mpr h')
    simp [this, eq_comm]

theorem readRegion_some {E : Env X P D B} {n : Name} {w w' : World X} {a : Region P D} :
    readRegion E n w = (w', ok (some a)) ↔ w' = w ∧ Reads E w.files n a := by
  unfold readRegion Reads
  split
  · next h =>
    subst h
    have no : ∀ f, ¬ HasFormat ":empty:".toList f := fun f hf => (format_not_empty hf).1 rfl
    simp only [no, Act.ret, Prod.mk.injEq, ok.injEq, Option.some.injEq]
    constructor
    · rintro ⟨rfl, rfl⟩; exact ⟨rfl, Or.inl ⟨trivial, rfl⟩⟩
    · rintro ⟨rfl, h | h | ⟨c, _, _, h | ⟨fmt, s, _, h, _⟩⟩⟩
      · exact ⟨rfl, h.2.symm⟩
      · exact absurd h.1 (by decide)
      · exact h.1.elim
      · exact h.elim
  · next h0 =>
    split
    · next h =>
      subst h
      have no : ∀ f, ¬ HasFormat ":full:".toList f := fun f hf => (format_not_empty hf).2 rfl
      simp only [no, Act.ret, Prod.mk.injEq, ok.injEq, Option.some.injEq]
      constructor
      · rintro ⟨rfl, rfl⟩; exact ⟨rfl, Or.inr (Or.inl ⟨trivial, rfl⟩)⟩
      · rintro ⟨rfl, h | h | ⟨c, _, _, h | ⟨fmt, s, _, h, _⟩⟩⟩
        · exact absurd h.1 (by decide)
        · exact ⟨rfl, h.2.symm⟩
        · exact h.1.elim
        · exact h.elim
    · next h1 =>
      simp only [h0, h1, false_and, false_or]
      split
      · next hk =>
        rw [readFile_some]
        have hk' : HasFormat n .kigumi := endsWith_iff.mp hk
        constructor
        · rintro ⟨rfl, hr, c, hc, hp⟩
          exact ⟨rfl, c, hr, hc, Or.inl ⟨hk', hp⟩⟩
        · rintro ⟨rfl, c, hr, hc, ⟨_, hp⟩ | ⟨fmt, s, hne, hf, _⟩⟩
          · exact ⟨rfl, hr, c, hc, hp⟩
          · exact absurd (format_unique hf hk') hne
      · next hk =>
        have hk' : ¬ HasFormat n .kigumi := fun h => hk (endsWith_iff.mpr h)
        rw [Act.bind_ok]
        constructor
        · rintro ⟨w1, o, h2, h3⟩
          cases o with
          | none => simp [Act.ret] at h3
          | some s =>
            dsimp only at h3
            rw [Act.bind_ok] at h3
            obtain ⟨w2, r, h4, h5⟩ := h3
            obtain ⟨rfl, h4'⟩ := Prod.mk.inj h4
            obtain ⟨rfl, h5⟩ := Prod.mk.inj h5
            cases h5
            obtain ⟨h6, rfl⟩ := ofSoup_ok.mp h4'
            unfold readTriangleSoup at h2
            cases hfmt : soupFormat n with
            | some fmt =>
              rw [hfmt] at h2
              dsimp only at h2
              obtain ⟨rfl, hr, c, hc, hp⟩ := readFile_some.mp h2
              obtain ⟨hf, hne⟩ := soupFormat_some.mp hfmt
              exact ⟨rfl, c, hr, hc, Or.inr ⟨fmt, s, hne, hf, hp, h6, rfl⟩⟩
            | none =>
              rw [hfmt] at h2
              simp [Act.bind, Act.cerr, Act.ret] at h2
        · rintro ⟨rfl, c, hr, hc, ⟨hk2, _⟩ | ⟨fmt, s, hne, hf, hp, h6, rfl⟩⟩
          · exact absurd hk2 hk'
          · refine ⟨w', some s, ?_, ?_⟩
            · unfold readTriangleSoup
              rw [soupFormat_some.mpr ⟨hf, hne⟩]
              exact readFile_some.mpr ⟨rfl, hr, c, hc, hp⟩
            · dsimp only
              rw [Act.bind_ok]
              exact ⟨w', _, by rw [Act.lift, ofSoup_ok.mpr ⟨h6, rfl⟩], rfl⟩

theorem readOrThrow_ok {E : Env X P D B} {n : Name} {w w' : World X} {a : Region P D} :
    readOrThrow E n w = (w', ok a) ↔ w' = w ∧ Reads E w.files n a := by
  unfold readOrThrow
  rw [Act.bind_ok]
  constructor
  · rintro ⟨w1, o, h1, h2⟩
    cases o with
    | none => simp [Act.lift] at h2
    | some r =>
      obtain ⟨rfl, h2⟩ := Prod.mk.inj h2
      cases h2
      exact readRegion_some.mp h1
  · intro h
    exact ⟨w', some a, readRegion_some.mpr h, rfl⟩

theorem readOrThrow_files (E : Env X P D B) (f : Name) (w : World X) :
    (readOrThrow E f w).1.files = w.files := by
  unfold readOrThrow
  refine Act.bind_files (Q := fun x => x = w.files) (readRegion_files E f w).1 ?_
  intro a w1 h
  have h2 := (readRegion_files E f w).1
  rw [h] at h2
  cases a <;> exact h2

theorem reads_unique {E : Env X P D B} {files : Name → Option (List X)} {n : Name} {a b : Region P D} (ha : Reads E files n a) (hb : Reads E files n b) : a = b := by
  have h1 := (readRegion_some (E := E) (n := n) (w := ⟨files, [], []⟩)).mpr ⟨rfl, ha⟩
  have h2 := (readRegion_some (E := E) (n := n) (w := ⟨files, [], []⟩)).mpr ⟨rfl, hb⟩
  rw [h1] at h2
  injection h2 with _ h2
  injection h2 with h2
  injection h2

/-! ## Writing -/

/-- What the writer for the name sends to the stream. -/
def Prints (E : Env X P D B) (n : Name) (r : Region P D) (ps : List (List X) × Outcome Unit) : Prop :=
  (HasFormat n .kigumi ∧ ps = E.kigumiPieces r) ∨ ∃ fmt, fmt ≠ .kigumi ∧ HasFormat n fmt ∧ ps = E.soupPieces fmt r.boundary

theorem prints_unique {E : Env X P D B} {n : Name} {r : Region P D} {p q : List (List X) × Outcome Unit} (hp : Prints E n r p) (hq : Prints E n r q) : p = q := by
  rcases hp with ⟨h1, rfl⟩ | ⟨f, h0, h1, rfl⟩ <;> rcases hq with ⟨h3, rfl⟩ | ⟨g, h2, h3, rfl⟩
  · rfl
  · exact absurd (format_unique h3 h1) h2
  · exact absurd (format_unique h1 h3) h0
  · rw [format_unique h1 h3]

/-- The stream when all pieces have been sent. -/
def stream (room : Nat) (flush : Nat → Nat → Bool) (ps : List (List X)) : OS X := ps.foldl (OS.put room flush) ⟨[], [], false⟩

theorem stream_inv (room : Nat) (flush : Nat → Nat → Bool) (ps : List (List X)) :
    ((stream room flush ps).bad = false → (stream room flush ps).file ++ (stream room flush ps).buf = ps.flatten) ∧
    ((stream room flush ps).bad = true → (stream room flush ps).buf = [] ∧ (stream room flush ps).file = ps.flatten.take room ∧ room < ps.flatten.length) := by
  induction ps using List.reverseRecOn with
  | nil => simp [stream]
  | append_singleton ps p ih =>
    obtain ⟨ih1, ih2⟩ := ih
    have e : stream room flush (ps ++ [p]) = (stream room flush ps).put room flush p := by simp [stream]
    rw [e]
    generalize stream room flush ps = s at ih1 ih2 ⊢
    unfold OS.put
    cases hb : s.bad with
    | true =>
      obtain ⟨h1, h2, h3⟩ := ih2 hb
      simp only [if_true, hb, List.flatten_append, List.flatten_singleton, List.length_append]
      refine ⟨fun h => (by cases h), fun _ => ⟨h1, ?_, by omega⟩⟩
      rw [List.take_append_of_le_length (by omega)]; exact h2
    | false =>
      have h1 := ih1 hb
      have h2 : s.file ++ (s.buf ++ p) = (ps ++ [p]).flatten := by rw [← List.append_assoc, h1]; simp
      by_cases hf : flush s.buf.length p.length = true
      · simp only [Bool.false_eq_true, if_false, hf, if_true]
        rw [h2]
        constructor
        · intro h
          have : (ps ++ [p]).flatten.length ≤ room := by simpa using h
          rw [List.take_of_length_le this, List.append_nil]
        · intro h
          exact ⟨trivial, rfl, of_decide_eq_true h⟩
      · simp only [Bool.false_eq_true, if_false, hf]
        refine ⟨fun _ => ?_, fun h => ?_⟩
        · exact h2
        · exact h.elim

/-- Whatever the buffering, the device ends up with as much of the output as it takes. -/
theorem stream_close (room : Nat) (flush : Nat → Nat → Bool) (ps : List (List X)) : (stream room flush ps).close room = ps.flatten.take room := by
  obtain ⟨h1, h2⟩ := stream_inv room flush ps
  unfold OS.close
  cases hb : (stream room flush ps).bad with
  | false => rw [h1 hb]
  | true =>
    obtain ⟨h3, h4, _⟩ := h2 hb
    rw [h3, h4, List.append_nil, List.take_take, Nat.min_self]

/-- Writing to the name succeeds. -/
def Writes (E : Env X P D B) (n : Name) (r : Region P D) : Prop :=
  E.creatable n = true ∧ ∃ ps, Prints E n r ps ∧ ps.2 = ok () ∧ (stream (E.room n) E.flush ps.1).bad = false

/-- The files after the output for `n` has been written. -/
def after (E : Env X P D B) (files : Name → Option (List X)) (n : Name) (r : Region P D) (files' : Name → Option (List X)) : Prop :=
  ∃ ps, Prints E n r ps ∧ files' n = some (ps.1.flatten.take (E.room n)) ∧ ∀ g, g ≠ n → files' g = files g

theorem writeFile_ok {E : Env X P D B} {f : Name} {ps : List (List X) × Outcome Unit} {w w' : World X} :
    writeFile E f ps w = (w', ok true) ↔ E.creatable f = true ∧ ps.2 = ok () ∧ (stream (E.room f) E.flush ps.1).bad = false ∧
      w' = { w with files := fun g => if g = f then some (ps.1.flatten.take (E.room f)) else w.files g } := by
  unfold writeFile
  by_cases hc : E.creatable f = true
  · rw [if_pos hc]
    change (_, _) = (_, _) ↔ _
    rw [show ps.1.foldl (OS.put (E.room f) E.flush) ⟨[], [], false⟩ = stream (E.room f) E.flush ps.1 from rfl, stream_close]
    simp only [Prod.mk.injEq]
    rcases ps with ⟨l, _ | m | m⟩
    · simp only [Outcome.bind, ok.injEq, hc, true_and]
      constructor
      · rintro ⟨h1, h2⟩; exact ⟨by simpa using h2, h1.symm⟩
      · rintro ⟨h1, h2⟩; exact ⟨h2.symm, by simpa using h1⟩
    · simp [Outcome.bind]
    · simp [Outcome.bind]
  · rw [if_neg hc]
    simp [Act.bind, Act.cerr, Act.ret, hc]

/-- Writing touches no other file, whether it succeeds or not. -/
theorem writeFile_frame (E : Env X P D B) (f : Name) (ps : List (List X) × Outcome Unit) (w : World X) {g : Name} (hg : g ≠ f) :
    (writeFile E f ps w).1.files g = w.files g := by
  unfold writeFile
  split
  · simp [hg]
  · simp [Act.bind, Act.cerr, Act.ret]

theorem writeRegion_cases (E : Env X P D B) (f : Name) (r : Region P D) :
    (∃ ps, Prints E f r ps ∧ writeRegion E f r = writeFile E f ps) ∨
    ((∀ fmt, ¬ HasFormat f fmt) ∧ writeRegion E f r = (Act.cerr "unsupported file format\n".toList).bind fun _ => Act.ret false) := by
  unfold writeRegion
  split
  · next h => exact Or.inl ⟨_, Or.inl ⟨endsWith_iff.mp h, rfl⟩, rfl⟩
  · next h =>
    unfold writeTriangleSoup
    cases hs : soupFormat f with
    | some fmt =>
      obtain ⟨h1, h2⟩ := soupFormat_some.mp hs
      exact Or.inl ⟨_, Or.inr ⟨fmt, h2, h1, rfl⟩, rfl⟩
    | none =>
      exact Or.inr ⟨(soupFormat_none fun hk => h (endsWith_iff.mpr hk)).mp hs, rfl⟩

theorem writeRegion_frame (E : Env X P D B) (f : Name) (r : Region P D) (w : World X) {g : Name} (hg : g ≠ f) :
    (writeRegion E f r w).1.files g = w.files g := by
  rcases writeRegion_cases E f r with ⟨ps, _, h⟩ | ⟨_, h⟩
  · rw [h]; exact writeFile_frame E f ps w hg
  · rw [h]; simp [Act.bind, Act.cerr, Act.ret]

theorem writeOrThrow_frame (E : Env X P D B) (f : Name) (r : Region P D) (w : World X) {g : Name} (hg : g ≠ f) :
    (writeOrThrow E f r w).1.files g = w.files g := by
  unfold writeOrThrow
  refine Act.bind_files (Q := fun x => x g = w.files g) (writeRegion_frame E f r w hg) ?_
  intro a w1 h
  have h2 := writeRegion_frame E f r w hg
  rw [h] at h2
  cases a <;> exact h2

theorem writeOrThrow_ok {E : Env X P D B} {f : Name} {r : Region P D} {w w' : World X} :
    writeOrThrow E f r w = (w', ok ()) ↔ Writes E f r ∧ after E w.files f r w'.files ∧ w'.err = w.err ∧ w'.out = w.out := by
  unfold writeOrThrow
  rw [Act.bind_ok]
  constructor
  · rintro ⟨w1, b, h1, h2⟩
    cases b with
    | false => simp [Act.lift] at h2
    | true =>
      obtain ⟨rfl, -⟩ := Prod.mk.inj h2
      rcases writeRegion_cases E f r with ⟨ps, hp, h⟩ | ⟨_, h⟩
      · rw [h, writeFile_ok] at h1
        obtain ⟨h3, h4, h5, rfl⟩ := h1
        exact ⟨⟨h3, ps, hp, h4, h5⟩, ⟨ps, hp, by simp, fun g hg => by simp [hg]⟩, rfl, rfl⟩
      · rw [h] at h1; simp [Act.bind, Act.cerr, Act.ret] at h1
  · rintro ⟨⟨h3, ps, hp, h4, h5⟩, ⟨qs, hq, h6, h7⟩, h8, h9⟩
    obtain rfl := prints_unique hq hp
    refine ⟨w', true, ?_, rfl⟩
    rcases writeRegion_cases E f r with ⟨qs', hq', h⟩ | ⟨hno, _⟩
    · obtain rfl := prints_unique hq' hp
      rw [h, writeFile_ok]
      refine ⟨h3, h4, h5, ?_⟩
      cases w'
      simp only at h6 h7 h8 h9
      subst h8 h9
      congr 1
      funext g
      by_cases hg : g = f
      · subst hg; simp [h6]
      · simp [hg, h7 g hg]
    · rcases hp with ⟨hp, _⟩ | ⟨fmt, _, hp, _⟩ <;> exact absurd hp (hno _)

/-! ## The outputs of the boolean command -/

theorem writeOutputs_frame (E : Env X P D B) (b : B) (l : List (Op × Option Name)) (w : World X) {g : Name} (hg : ∀ op, (op, some g) ∉ l) :
    (writeOutputs E b l w).1.files g = w.files g := by
  induction l generalizing w with
  | nil => rfl
  | cons x l ih =>
    have hl : ∀ op, (op, some g) ∉ l := fun op h => hg op (List.mem_cons_of_mem _ h)
    rcases x with ⟨op, _ | f⟩
    · exact ih w hl
    · have hgf : g ≠ f := by rintro rfl; exact hg op List.mem_cons_self
      unfold writeOutputs
      refine Act.bind_files (Q := fun x => x g = w.files g) rfl ?_
      intro r w1 h
      obtain ⟨rfl, -⟩ := Prod.mk.inj h
      refine Act.bind_files (Q := fun x => x g = w.files g) (writeOrThrow_frame E f r w hgf) ?_
      intro _ w2 h2
      have := writeOrThrow_frame E f r w hgf
      rw [h2] at this
      exact (ih w2 hl).trans this

/-- The last operator of the list whose output is `g`. -/
def lastOp (l : List (Op × Option Name)) (g : Name) : Option Op :=
  match l with
  | [] => none
  | (op, n) :: l => match lastOp l g with
    | some op' => some op'
    | none => if n = some g then some op else none

theorem lastOp_mem {l : List (Op × Option Name)} {g : Name} {op : Op} (h : lastOp l g = some op) : (op, some g) ∈ l := by
  induction l with
  | nil => cases h
  | cons x l ih =>
    obtain ⟨op', n⟩ := x
    unfold lastOp at h
    cases hl : lastOp l g with
    | some op'' => rw [hl] at h; cases h; exact List.mem_cons_of_mem _ (ih hl)
    | none =>
      rw [hl] at h
      dsimp only at h
      split at h
      · next hn => cases h; subst hn; exact List.mem_cons_self
      · cases h

theorem lastOp_none {l : List (Op × Option Name)} {g : Name} (h : lastOp l g = none) : ∀ op, (op, some g) ∉ l := by
  induction l with
  | nil => simp
  | cons x l ih =>
    obtain ⟨op', n⟩ := x
    unfold lastOp at h
    cases hl : lastOp l g with
    | some op'' => rw [hl] at h; cases h
    | none =>
      rw [hl] at h
      dsimp only at h
      split at h
      · cases h
      · next hn =>
        intro op hm
        rcases List.mem_cons.mp hm with e | e
        · injection e with _ e; exact hn e.symm
        · exact ih hl op e

/-- What is in the files when all outputs have been written. -/
theorem writeOutputs_ok {E : Env X P D B} {b : B} {l : List (Op × Option Name)} {w w' : World X} (h : writeOutputs E b l w = (w', ok ())) :
    w'.err = w.err ∧ w'.out = w.out ∧ (∀ op f, (op, some f) ∈ l → ∃ r, E.eval b op = ok r ∧ Writes E f r) ∧
    (∀ g, match lastOp l g with
      | none => w'.files g = w.files g
      | some op => ∃ r ps, E.eval b op = ok r ∧ Prints E g r ps ∧ w'.files g = some (ps.1.flatten.take (E.room g))) := by
  induction l generalizing w with
  | nil =>
    obtain ⟨rfl, -⟩ := Prod.mk.inj h
    exact ⟨rfl, rfl, by simp, fun g => rfl⟩
  | cons x l ih =>
    rcases x with ⟨op, _ | f⟩
    · unfold writeOutputs at h
      obtain ⟨h1, h2, h3, h4⟩ := ih h
      refine ⟨h1, h2, ?_, ?_⟩
      · intro op' f hm
        rcases List.mem_cons.mp hm with e | e
        · cases e
        · exact h3 op' f e
      · intro g
        have := h4 g
        unfold lastOp
        revert this
        cases lastOp l g with
        | some _ => exact id
        | none => exact id
    · unfold writeOutputs at h
      rw [Act.bind_ok] at h
      obtain ⟨w1, r, h1, h⟩ := h
      obtain ⟨rfl, hr⟩ := Prod.mk.inj h1
      rw [Act.bind_ok] at h
      obtain ⟨w2, _, h2, h⟩ := h
      obtain ⟨g1, ⟨ps, g2, g3, g4⟩, g5, g6⟩ := writeOrThrow_ok.mp h2
      obtain ⟨k1, k2, k3, k4⟩ := ih h
      refine ⟨k1.trans g5, k2.trans g6, ?_, ?_⟩
      · intro op' f' hm
        rcases List.mem_cons.mp hm with e | e
        · cases e; exact ⟨r, hr, g1⟩
        · exact k3 op' f' e
      · intro g
        have := k4 g
        unfold lastOp
        revert this
        cases lastOp l g with
        | some _ => exact id
        | none =>
          dsimp only
          intro hk
          split
          · next e =>
            split at e
            · cases e
            · next hn =>
              rw [hk]
              exact g4 g fun hg => hn (by rw [hg])
          · next op' e =>
            split at e
            · next hn =>
              cases e; cases hn
              exact ⟨r, ps, hr, g2, by rw [hk]; exact g3⟩
            · cases e

theorem writeOutputs_succeeds {E : Env X P D B} {b : B} {l : List (Op × Option Name)} (w : World X)
    (h : ∀ op f, (op, some f) ∈ l → ∃ r, E.eval b op = ok r ∧ Writes E f r) : ∃ w', writeOutputs E b l w = (w', ok ()) := by
  induction l generalizing w with
  | nil => exact ⟨w, rfl⟩
  | cons x l ih =>
    have hl : ∀ op f, (op, some f) ∈ l → ∃ r, E.eval b op = ok r ∧ Writes E f r := fun op f hm => h op f (List.mem_cons_of_mem _ hm)
    rcases x with ⟨op, _ | f⟩
    · exact ih w hl
    · obtain ⟨r, hr, hw⟩ := h op f List.mem_cons_self
      obtain ⟨-, ps, hp, -⟩ := id hw
      have h1 : writeOrThrow E f r w = ({ w with files := fun g => if g = f then some (ps.1.flatten.take (E.room f)) else w.files g }, ok ()) :=
        writeOrThrow_ok.mpr ⟨hw, ⟨ps, hp, by simp, fun g hg => by simp [hg]⟩, rfl, rfl⟩
      obtain ⟨w', h2⟩ := ih _ hl
      refine ⟨w', ?_⟩
      unfold writeOutputs
      rw [Act.bind_ok]
      refine ⟨w, r, by rw [Act.lift, hr], ?_⟩
      rw [Act.bind_ok]
      exact ⟨_, _, h1, h2⟩

/-! ## Commands -/

theorem parseOr_ok {usage : List Char} {o : Outcome α} {w w' : World X} {a : α} : parseOr usage o w = (w', ok a) ↔ w' = w ∧ o = ok a := by
  unfold parseOr
  cases o with
  | ok b => simp [Act.lift, eq_comm]
  | exn m => simp [Act.bind, Act.cerr, Act.lift]
  | ub m => simp [Act.lift]

theorem parseOr_files (usage : List Char) (o : Outcome α) (w : World X) : (parseOr usage o w).1.files = w.files := by
  unfold parseOr
  cases o <;> rfl

/-- The lines printed for the warnings. -/
def warningLines (w : Warnings) : List Char :=
  (if (w &&& Warnings.first) ≠ .none then firstWarning else []) ++ (if (w &&& Warnings.second) ≠ .none then secondWarning else [])

theorem printWarnings_eq (v : Warnings) (w : World X) : printWarnings v w = ({ w with err := w.err ++ warningLines v }, ok ()) := by
  unfold printWarnings warningLines Act.when' Act.bind
  by_cases h1 : (v &&& Warnings.first) = .none <;> by_cases h2 : (v &&& Warnings.second) = .none <;>
    simp [h1, h2, Act.ret, Act.cerr, List.append_assoc]

theorem construct_eq (E : Env X P D B) (a b : Region P D) (w : World X) :
    ∃ t, construct E a b w = ({ w with out := w.out ++ t }, E.build a b) ∧ (∀ x, E.build a b = ok x → t = progressText a b) := by
  have e : (!(a.isEmptyOrFull || b.isEmptyOrFull)) = decide (a.kind = .boundaryDefined ∧ b.kind = .boundaryDefined) := by
    obtain ⟨ka, sa⟩ := a
    obtain ⟨kb, sb⟩ := b
    cases ka <;> cases kb <;> rfl
  unfold construct progressText Act.when' Act.bind
  rw [e]
  by_cases h : a.kind = .boundaryDefined ∧ b.kind = .boundaryDefined
  · rw [if_pos (by simp [h]), if_pos h]
    refine ⟨_, rfl, ?_⟩
    intro x hx
    rw [hx]
    show (progress.map String.toList).flatten = _
    decide +kernel
  · rw [if_neg (by simp [h]), if_neg h]
    exact ⟨[], by simp [Act.ret, Act.lift], fun _ _ => rfl⟩

theorem construct_ok {E : Env X P D B} {a b : Region P D} {w w' : World X} {x : B × Warnings} :
    construct E a b w = (w', ok x) ↔ w' = { w with out := w.out ++ progressText a b } ∧ E.build a b = ok x := by
  obtain ⟨t, h1, h2⟩ := construct_eq E a b w
  rw [h1]
  constructor
  · intro h
    obtain ⟨h3, h4⟩ := Prod.mk.inj h
    exact ⟨by rw [← h3, h2 x h4], h4⟩
  · rintro ⟨rfl, h⟩
    rw [h, h2 x h]

theorem construct_files (E : Env X P D B) (a b : Region P D) (w : World X) : (construct E a b w).1.files = w.files := by
  obtain ⟨t, h1, -⟩ := construct_eq E a b w
  rw [h1]

theorem booleanCommand_ok {E : Env X P D B} {args : List Name} {w w' : World X} :
    booleanCommand E args w = (w', ok ()) ↔ ∃ o a b bb v, E.parseBoolean args = ok o ∧ Reads E w.files o.first a ∧ Reads E w.files o.second b ∧
      E.build a b = ok (bb, v) ∧ writeOutputs E bb (outputs o) { w with out := w.out ++ progressText a b, err := w.err ++ warningLines v } = (w', ok ()) := by
  unfold booleanCommand
  constructor
  · intro h
    rw [Act.bind_ok] at h
    obtain ⟨w1, o, h1, h⟩ := h
    obtain ⟨rfl, p1⟩ := parseOr_ok.mp h1
    rw [Act.bind_ok] at h
    obtain ⟨w2, a, h2, h⟩ := h
    obtain ⟨rfl, p2⟩ := readOrThrow_ok.mp h2
    rw [Act.bind_ok] at h
    obtain ⟨w3, b, h3, h⟩ := h
    obtain ⟨rfl, p3⟩ := readOrThrow_ok.mp h3
    rw [Act.bind_ok] at h
    obtain ⟨w4, ⟨bb, v⟩, h4, h⟩ := h
    obtain ⟨rfl, p4⟩ := construct_ok.mp h4
    dsimp only at h
    rw [Act.bind_ok] at h
    obtain ⟨w5, _, h5, h⟩ := h
    rw [printWarnings_eq] at h5
    obtain ⟨rfl, -⟩ := Prod.mk.inj h5
    exact ⟨o, a, b, bb, v, p1, p2, p3, p4, h⟩
  · rintro ⟨o, a, b, bb, v, h1, h2, h3, h4, h⟩
    rw [Act.bind_ok]
    refine ⟨w, o, parseOr_ok.mpr ⟨rfl, h1⟩, ?_⟩
    rw [Act.bind_ok]
    refine ⟨w, a, readOrThrow_ok.mpr ⟨rfl, h2⟩, ?_⟩
    rw [Act.bind_ok]
    refine ⟨w, b, readOrThrow_ok.mpr ⟨rfl, h3⟩, ?_⟩
    rw [Act.bind_ok]
    refine ⟨_, (bb, v), construct_ok.mpr ⟨rfl, h4⟩, ?_⟩
    dsimp only
    rw [Act.bind_ok]
    exact ⟨_, (), printWarnings_eq v _, h⟩

/-- Files that are not outputs are left alone, and nothing is written before both regions have been read and combined. -/
theorem booleanCommand_frame (E : Env X P D B) (args : List Name) (w : World X) {g : Name}
    (hg : ∀ o a b bv, E.parseBoolean args = ok o → Reads E w.files o.first a → Reads E w.files o.second b → E.build a b = ok bv →
      ∀ op, (op, some g) ∉ outputs o) :
    (booleanCommand E args w).1.files g = w.files g := by
  unfold booleanCommand
  refine Act.bind_files (Q := fun x => x g = w.files g) (by rw [parseOr_files]) ?_
  intro o w1 h1
  obtain ⟨rfl, p1⟩ := parseOr_ok.mp h1
  refine Act.bind_files (Q := fun x => x g = w1.files g) (by rw [readOrThrow_files]) ?_
  intro a w2 h2
  obtain ⟨rfl, p2⟩ := readOrThrow_ok.mp h2
  refine Act.bind_files (Q := fun x => x g = w2.files g) (by rw [readOrThrow_files]) ?_
  intro b w3 h3
  obtain ⟨rfl, p3⟩ := readOrThrow_ok.mp h3
  refine Act.bind_files (Q := fun x => x g = w3.files g) (by rw [construct_files]) ?_
  rintro ⟨bb, v⟩ w4 h4
  obtain ⟨rfl, p4⟩ := construct_ok.mp h4
  dsimp only
  refine Act.bind_files (Q := fun x => x g = w3.files g) (by rw [printWarnings_eq]) ?_
  intro _ w5 h5
  rw [printWarnings_eq] at h5
  obtain ⟨rfl, -⟩ := Prod.mk.inj h5
  exact writeOutputs_frame E bb (outputs o) { w3 with out := w3.out ++ progressText a b, err := w3.err ++ warningLines v } (hg o a b (bb, v) p1 p2 p3 p4)

theorem convertCommand_ok {E : Env X P D B} {args : List Name} {w w' : World X} :
    convertCommand E args w = (w', ok ()) ↔ ∃ i o r, E.parseInOut args = ok (i, o) ∧ Reads E w.files i r ∧
      Writes E o r ∧ after E w.files o r w'.files ∧ w'.err = w.err ∧ w'.out = w.out := by
  unfold convertCommand
  constructor
  · intro h
    rw [Act.bind_ok] at h
    obtain ⟨w1, ⟨i, o⟩, h1, h⟩ := h
    obtain ⟨rfl, p1⟩ := parseOr_ok.mp h1
    dsimp only at h
    rw [Act.bind_ok] at h
    obtain ⟨w2, r, h2, h⟩ := h
    obtain ⟨rfl, p2⟩ := readOrThrow_ok.mp h2
    exact ⟨i, o, r, p1, p2, writeOrThrow_ok.mp h⟩
  · rintro ⟨i, o, r, h1, h2, h⟩
    rw [Act.bind_ok]
    refine ⟨w, (i, o), parseOr_ok.mpr ⟨rfl, h1⟩, ?_⟩
    dsimp only
    rw [Act.bind_ok]
    exact ⟨w, r, readOrThrow_ok.mpr ⟨rfl, h2⟩, writeOrThrow_ok.mpr h⟩

theorem main_zero {E : Env X P D B} {args : List Name} {w w' : World X} :
    main E args w = (w', ok 0) ↔ ∃ rest, (args = "boolean".toList :: rest ∧ booleanCommand E rest w = (w', ok ())) ∨
      (args = "convert".toList :: rest ∧ convertCommand E rest w = (w', ok ())) ∨ (args = "defects".toList :: rest ∧ defectsCommand E rest w = (w', ok ())) := by
  have run : ∀ (c : Act X Unit) (w w' : World X), report ((c.bind fun _ => Act.ret 0) w) = (w', (ok 0 : Outcome Nat)) ↔ c w = (w', ok ()) := by
    intro c w w'
    unfold report Act.bind
    rcases c w with ⟨w1, ⟨⟩ | m | m⟩
    · simp [Act.ret]
    · simp [Act.ret, Act.cerr]
    · simp [report]
  unfold main
  cases args with
  | nil => simp [Act.bind, Act.cerr, Act.ret]
  | cons c rest =>
    dsimp only
    unfold commands
    by_cases hb : c = "boolean".toList
    · subst hb
      rw [show dispatch "boolean".toList rest [("boolean".toList, booleanCommand E), ("convert".toList, convertCommand E), ("defects".toList, defectsCommand E)] = (booleanCommand E rest).bind fun _ => Act.ret 0 from by unfold dispatch; rw [if_pos rfl]]
      rw [run]
      constructor
      · intro h; exact ⟨rest, Or.inl ⟨rfl, h⟩⟩
      · rintro ⟨r, ⟨h, h'⟩ | ⟨h, -⟩ | ⟨h, -⟩⟩
        · injection h with _ h; subst h; exact h'
        · exact absurd (List.cons.inj h).1 (by decide)
        · exact absurd (List.cons.inj h).1 (by decide)
    · by_cases hc : c = "convert".toList
      · subst hc
        rw [show dispatch "convert".toList rest [("boolean".toList, booleanCommand E), ("convert".toList, convertCommand E), ("defects".toList, defectsCommand E)] = (convertCommand E rest).bind fun _ => Act.ret 0 from by
          unfold dispatch; rw [if_neg (by decide)]; unfold dispatch; rw [if_pos rfl]]
        rw [run]
        constructor
        · intro h; exact ⟨rest, Or.inr (Or.inl ⟨rfl, h⟩)⟩
        · rintro ⟨r, ⟨h, -⟩ | ⟨h, h'⟩ | ⟨h, -⟩⟩
          · exact absurd (List.cons.inj h).1 (by decide)
          · injection h with _ h; subst h; exact h'
          · exact absurd (List.cons.inj h).1 (by decide)
      · by_cases hd : c = "defects".toList
        · subst hd
          rw [show dispatch "defects".toList rest [("boolean".toList, booleanCommand E), ("convert".toList, convertCommand E), ("defects".toList, defectsCommand E)] = (defectsCommand E rest).bind fun _ => Act.ret 0 from by
            unfold dispatch; rw [if_neg (by decide)]; unfold dispatch; rw [if_neg (by decide)]; unfold dispatch; rw [if_pos rfl]]
          rw [run]
          constructor
          · intro h; exact ⟨rest, Or.inr (Or.inr ⟨rfl, h⟩)⟩
          · rintro ⟨r, ⟨h, -⟩ | ⟨h, -⟩ | ⟨h, h'⟩⟩
            · exact absurd (List.cons.inj h).1 (by decide)
            · exact absurd (List.cons.inj h).1 (by decide)
            · injection h with _ h; subst h; exact h'
        · have hu : dispatch c rest [("boolean".toList, booleanCommand E), ("convert".toList, convertCommand E), ("defects".toList, defectsCommand E)] =
              (Act.cerr ("error: unknown command: ".toList ++ c ++ ['\n'])).bind fun _ => Act.ret 1 := by
            unfold dispatch; rw [if_neg (Ne.symm hb)]; unfold dispatch; rw [if_neg (Ne.symm hc)]; unfold dispatch; rw [if_neg (Ne.symm hd)]; rfl
          rw [hu]
          constructor
          · intro h; simp [report, Act.bind, Act.cerr, Act.ret] at h
          · rintro ⟨r, ⟨h, -⟩ | ⟨h, -⟩ | ⟨h, -⟩⟩
            · exact absurd (List.cons.inj h).1 hb
            · exact absurd (List.cons.inj h).1 hc
            · exact absurd (List.cons.inj h).1 hd

/-- The exit status is 0 or 1, or there is undefined behaviour; no exception leaves `main`. -/
theorem main_status (E : Env X P D B) (args : List Name) (w : World X) :
    (main E args w).2 = ok 0 ∨ (main E args w).2 = ok 1 ∨ ∃ m, (main E args w).2 = ub m := by
  have key : ∀ c rest (l : List (Name × (List Name → Act X Unit))) (w : World X), (dispatch c rest l w).2 = ok 0 ∨ (dispatch c rest l w).2 = ok 1 ∨
      (∃ m, (dispatch c rest l w).2 = exn m) ∨ ∃ m, (dispatch c rest l w).2 = ub m := by
    intro c rest l w
    induction l with
    | nil => right; left; rfl
    | cons x l ih =>
      obtain ⟨n, f⟩ := x
      unfold dispatch
      split
      · unfold Act.bind
        rcases f rest w with ⟨w1, ⟨⟩ | m | m⟩
        · left; rfl
        · right; right; left; exact ⟨m, rfl⟩
        · right; right; right; exact ⟨m, rfl⟩
      · exact ih
  unfold main
  cases args with
  | nil => right; left; rfl
  | cons c rest =>
    dsimp only
    have := key c rest (commands E) w
    revert this
    generalize dispatch c rest (commands E) w = x
    rcases x with ⟨w1, n | m | m⟩
    · simp [report]
    · intro _; right; left; rfl
    · intro _; right; right; exact ⟨m, rfl⟩

end Kigumi.Cli
