import Verif.Spec.Arguments
import Verif.Props.BinaryRead
import Verif.Props.ObjRead
import Verif.Props.OffRead
import Verif.Props.PlyRead
import Verif.Props.ProgramText

/-!
# C104: which arguments the programs take, and when they end with status 0
-/
namespace Kigumi.IO
open Kigumi Outcome

/-! ## Exceptions only -/

/-- No undefined behaviour. -/
def Defined {α : Type} (r : Rd α) : Prop := ∀ st u, r st ≠ ub u

theorem Defined.bind {α β : Type} {r : Rd α} {f : α → Rd β} (h : Defined r) (hf : ∀ a, Defined (f a)) : Defined (r.bind f) := by
  intro st u e
  unfold Rd.bind at e
  cases hr : r st with
  | ok x => rw [hr] at e; exact hf x.1 x.2 u e
  | exn m => rw [hr] at e; cases e
  | ub m => exact h st m hr

theorem defined_ret {α : Type} (a : α) : Defined (Rd.ret a) := fun st u e => by cases e

theorem defined_rInt (h : Host) (u t : IntTy) : Defined (rInt h u t) := by
  intro st m e
  unfold rInt kigumiRead at e
  split at e
  · cases e
  · generalize IO.readInt h u 0 st.s = q at e
    obtain ⟨s, x⟩ := q
    dsimp only at e
    cases hc : checkedCast t x with
    | ok y => rw [hc] at e; cases e
    | exn y => rw [hc] at e; cases e
    | ub y => unfold checkedCast at hc; split at hc <;> cases hc

theorem defined_size (h : Host) : Defined (rSize h) := (defined_rInt h _ _).bind fun _ => defined_ret _
theorem defined_bool (h : Host) : Defined (rBool h) := (defined_rInt h _ _).bind fun _ => defined_ret _
theorem defined_double (h : Host) : Defined (rDouble h) := (defined_rInt h _ _).bind fun _ => defined_ret _
theorem defined_block (h : Host) : Defined (rBlock h) := (defined_size h).bind fun _ => fun st u e => by cases e

theorem defined_rat (h : Host) : Defined (rRat h .boost) := by
  rw [rRat_eq]
  refine (defined_bool h).bind fun neg => (defined_block h).bind fun n => (defined_block h).bind fun d => fun st u e => ?_
  unfold ratio at e
  split at e <;> cases e

theorem defined_vertex (h : Host) (N : Numbers) (hN : N.backend = .boost) : Defined (rVertex h N) := by
  rw [rVertex_eq]
  refine (defined_bool h).bind fun b => ?_
  cases b
  · show Defined (rDoubles h N)
    exact (defined_double h).bind fun _ => (defined_double h).bind fun _ => (defined_double h).bind fun _ => defined_ret _
  · show Defined (rRats h N)
    unfold rRats
    rw [hN]
    exact (defined_rat h).bind fun _ => (defined_rat h).bind fun _ => (defined_rat h).bind fun _ => defined_ret _

theorem defined_vertices {D : Type} (h : Host) (N : Numbers) (hN : N.backend = .boost) (n : Nat) (t : Soup Pt D) : Defined (rVertices h N n t) := by
  induction n generalizing t with
  | zero => exact defined_ret t
  | succ n ih => exact (defined_vertex h N hN).bind fun p => ih _

theorem defined_faces {D : Type} (h : Host) (C : Codec D) (hC : Defined C.dec) (n : Nat) (t : Soup Pt D) : Defined (rFaces h C n t) := by
  induction n generalizing t with
  | zero => exact defined_ret t
  | succ n ih =>
    rw [rFaces_succ]
    refine (defined_size h).bind fun a => (defined_size h).bind fun b => (defined_size h).bind fun c => hC.bind fun d => fun st u e => ?_
    unfold appendFace at e
    split at e
    · exact ih _ st u e
    · cases e

/-- Reading a region with Boost throws or returns. -/
theorem readRegion_defined {D : Type} (h : Host) (N : Numbers) (hN : N.backend = .boost) (C : Codec D) (hC : Defined C.dec) (t : RawRegion D) (st : St) (u : String) : readRegion h N C t st ≠ ub u := by
  intro e
  unfold readRegion at e
  split at e
  · cases e
  · have hd : Defined (rRegion h N C t) := (defined_rInt h _ _).bind fun k => Defined.bind
      ((defined_size h).bind fun nv => (defined_size h).bind fun nf => (defined_vertices h N hN nv _).bind fun t => defined_faces h C hC nf t) fun _ => defined_ret _
    cases hr : rRegion h N C t st with
    | ok x => rw [hr] at e; cases e
    | exn m => rw [hr] at e; cases e
    | ub m => exact hd st m hr

end Kigumi.IO

namespace Kigumi.Props
open Kigumi Outcome
open Kigumi.Spec (truth)
open Kigumi.Spec.Cli (Wanted last HasFormat Means)
open Kigumi.Spec.Arguments (Taken StandsFor)
open Kigumi.IO (Host Numbers Pt RawRegion Byte nullCodec)
open Kigumi.Cli (World Name Options main Format Act readOrThrow)
open Kigumi.Geo (P3)
open Kigumi.Program
variable {F : Type} {h : Host} {N : Numbers} {M : Text.Doubles F} {bits : F → Nat} {E : Cli.Env Byte Pt Unit (Builder P3 Unit)}

/-- The parameter of the program for reading text files is the model of the readers (`TextLibrary.read` with its converse; here `F` has to hold all numbers that `fast_float` accepts). -/
def TextReaders (N : Numbers) (M : Text.Doubles F) (bits : F → Nat) (E : Cli.Env Byte Pt Unit (Builder P3 Unit)) : Prop :=
  ∀ fmt c, fmt ≠ .kigumi → E.readSoup fmt c = ok (if (readText M fmt (chars c)).1 then some (fromText N bits (readText M fmt (chars c)).2.1) else none)

theorem taken_or (M : Text.Doubles F) {fmt : Format} (hk : fmt ≠ .kigumi) (t : List Char) :
    (∃ ps fs k, Taken M fmt t ps fs ∧ readText M fmt t = (true, ⟨ps, fs.flatMap Text.fan, List.replicate (fs.flatMap Text.fan).length ()⟩, k)) ∨
      (¬ ∃ ps fs, Taken M fmt t ps fs) ∧ ∃ s k, readText M fmt t = (false, s, k) := by
  cases fmt with
  | kigumi => exact absurd rfl hk
  | obj => exact (C98_obj M () t Soup.empty).imp_right fun ⟨h1, k, h2⟩ => ⟨h1, _, k, h2⟩
  | off => exact (C101_off M () t Soup.empty).imp_right fun ⟨h1, k, h2⟩ => ⟨h1, _, k, h2⟩
  | ply => exact (C102_ply M () t Soup.empty).imp_right fun ⟨h1, k, h2⟩ => ⟨h1, _, k, h2⟩

theorem taken_unique {fmt : Format} {t : List Char} {ps ps' : List (Text.P3 F)} {fs fs' : List (List Nat)} (h1 : Taken M fmt t ps fs) (h2 : Taken M fmt t ps' fs') : ps = ps' ∧ fs = fs' := by
  cases fmt with
  | kigumi => exact absurd h1 id
  | obj => exact C98_unique h1 h2
  | off => exact C101_unique h1 h2
  | ply => exact C102_unique h1 h2

theorem fans_nil (fs : List (List Nat)) : fs.flatMap Text.fan ≠ [] ↔ ∃ f ∈ fs, 3 ≤ f.length := by
  constructor
  · intro hne
    by_contra hno
    apply hne
    rw [List.flatMap_eq_nil_iff]
    intro f hf
    have hl : f.length < 3 := by
      by_contra hl
      exact hno ⟨f, hf, by omega⟩
    match f, hl with
    | [], _ => rfl
    | [_], _ => rfl
    | [_, _], _ => rfl
  · rintro ⟨f, hf1, hf2⟩ h0
    rw [List.flatMap_eq_nil_iff] at h0
    have := h0 f hf1
    match f, hf2 with
    | a :: b :: d :: r, _ => simp [Text.fan] at this

theorem readKigumi_iff (hE : Library h N E) (c : List Byte) (a : Region Pt Unit) :
    E.readKigumi c = ok (some a) ↔ ∃ xs rest raw, c = xs ++ rest ∧ BinSpec.IsRegion N BinSpec.IsNothing xs raw ∧ a = regionOf raw := by
  obtain ⟨buf, e⟩ := hE.read c
  rw [e]
  constructor
  · intro k
    obtain ⟨⟨b, raw, st⟩, k1, k2⟩ := IO.bind_ok k
    dsimp only at k2
    cases b with
    | false => cases k2
    | true =>
      injection k2 with k2
      injection k2 with k2
      obtain ⟨xs, rest, e1, e2⟩ := ((IO.C103_files N c).1 raw).1 ⟨h, buf, st, k1⟩
      exact ⟨xs, rest, raw, e1, e2, k2.symm⟩
  · rintro ⟨xs, rest, raw, rfl, k, rfl⟩
    obtain ⟨buf', e'⟩ := IO.C103_taken h N nullCodec BinSpec.IsNothing IO.exact_null .fresh rfl xs raw k rest buf
    rw [show (⟨⟨xs ++ rest, false, false⟩, buf⟩ : IO.St) = IO.mk (xs ++ rest) buf from rfl, e']
    rfl

/-! ## Statements -/

/-- **Operands.** An argument is read as a region exactly if it stands for it: no other files are taken, and none of these is refused. -/
theorem C104_operand (hE : Library h N E) (hT : TextReaders N M bits E) (files : Name → Option (List Byte)) (n : Name) (a : Region Pt Unit) :
    Cli.Reads E files n a ↔ StandsFor N M bits E.readable files n a := by
  constructor
  · rintro (⟨hn, rfl⟩ | ⟨hn, rfl⟩ | ⟨c, hr, hc, ⟨hn, hk⟩ | ⟨fmt, s, hne, hn, hs, hf, rfl⟩⟩)
    · exact .empty hn
    · exact .full hn
    · obtain ⟨xs, rest, raw, h1, h2, rfl⟩ := (readKigumi_iff hE c a).1 hk
      exact .binary hn hr hc h1 h2
    · rw [hT fmt c hne] at hs
      rcases taken_or M hne (chars c) with ⟨ps, fs, k, h1, h2⟩ | ⟨-, s', k, h2⟩
      · rw [h2] at hs
        injection hs with hs
        injection hs with hs
        subst hs
        exact .text hn hr hc h1 ((fans_nil fs).1 hf)
      · rw [h2] at hs
        cases hs
  · intro k
    cases k with
    | empty hn => exact .inl ⟨hn, rfl⟩
    | full hn => exact .inr (.inl ⟨hn, rfl⟩)
    | binary hn hr hc h1 h2 => exact .inr (.inr ⟨_, hr, hc, .inl ⟨hn, (readKigumi_iff hE _ _).2 ⟨_, _, _, h1, h2, rfl⟩⟩⟩)
    | @text fmt c ps fs hn hr hc h1 h2 =>
      have hk : fmt ≠ .kigumi := by rintro rfl; exact h1
      refine .inr (.inr ⟨_, hr, hc, .inr ⟨fmt, _, hk, hn, ?_, (fans_nil fs).2 h2, rfl⟩⟩)
      rw [hT fmt c hk]
      rcases taken_or M hk (chars c) with ⟨ps', fs', k, h3, h4⟩ | ⟨h3, -⟩
      · obtain ⟨rfl, rfl⟩ := taken_unique h1 h3
        rw [h4]; rfl
      · exact absurd ⟨ps, fs, h1⟩ h3

/-- **An argument stands for one region at most.** -/
theorem C104_unique (readable : Name → Bool) (files : Name → Option (List Byte)) (n : Name) (a b : Region Pt Unit) (ha : StandsFor N M bits readable files n a) (hb : StandsFor N M bits readable files n b) : a = b := by
  cases ha with
  | empty hn => cases hb with
    | empty _ => rfl
    | full hn' => rw [hn] at hn'; exact absurd hn' (by decide)
    | binary hf => exact absurd hn (Cli.format_not_empty hf).1
    | text hf => exact absurd hn (Cli.format_not_empty hf).1
  | full hn => cases hb with
    | empty hn' => rw [hn] at hn'; exact absurd hn' (by decide)
    | full _ => rfl
    | binary hf => exact absurd hn (Cli.format_not_empty hf).2
    | text hf => exact absurd hn (Cli.format_not_empty hf).2
  | binary hn hr hc h1 h2 => cases hb with
    | empty hn' => exact absurd hn' (Cli.format_not_empty hn).1
    | full hn' => exact absurd hn' (Cli.format_not_empty hn).2
    | binary hn' hr' hc' h1' h2' =>
      rw [hc] at hc'; cases hc'
      rw [(IO.C103_unique N nullCodec BinSpec.IsNothing IO.exact_null _ _ _ _ _ _ (h1.symm.trans h1') h2 h2').2]
    | text hn' hr' hc' h1' =>
      obtain rfl := Cli.format_unique hn hn'
      exact absurd h1' id
  | text hn hr hc h1 h2 => cases hb with
    | empty hn' => exact absurd hn' (Cli.format_not_empty hn).1
    | full hn' => exact absurd hn' (Cli.format_not_empty hn).2
    | binary hn' =>
      obtain rfl := Cli.format_unique hn hn'
      exact absurd h1 id
    | text hn' hr' hc' h1' =>
      obtain rfl := Cli.format_unique hn hn'
      rw [hc] at hc'; cases hc'
      obtain ⟨rfl, rfl⟩ := taken_unique h1 h1'
      rfl

/-- **When the programs end with status 0**: the options are accepted, the arguments stand for regions, and what is computed can be written. -/
theorem C104_status (hE : Library h N E) (hT : TextReaders N M bits E) (rest : List Name) (w : World Byte) :
    ((main E ("convert".toList :: rest) w).2 = ok 0 ↔ ∃ i o a, E.parseInOut rest = ok (i, o) ∧ StandsFor N M bits E.readable w.files i a ∧ Cli.Writes E o a) ∧
    ((main E ("defects".toList :: rest) w).2 = ok 0 ↔ ∃ i a c, E.parseIn rest = ok i ∧ StandsFor N M bits E.readable w.files i a ∧ E.defects a.boundary = ok c) ∧
    ((main E ("boolean".toList :: rest) w).2 = ok 0 ↔ ∃ o a b bb v, E.parseBoolean rest = ok o ∧ StandsFor N M bits E.readable w.files o.first a ∧ StandsFor N M bits E.readable w.files o.second b ∧
      E.build a b = ok (bb, v) ∧ ∀ op n, Wanted o (truth op) n → ∃ r, E.eval bb op = ok r ∧ Cli.Writes E n r) := by
  refine ⟨⟨?_, ?_⟩, ⟨?_, ?_⟩, ?_⟩
  · intro k
    obtain ⟨i, o, r, h1, h2, h3, -⟩ := (C53_convert E rest w (main E ("convert".toList :: rest) w).1).1 (Prod.ext rfl k)
    exact ⟨i, o, r, h1, (C104_operand hE hT _ _ _).1 h2, h3⟩
  · rintro ⟨i, o, a, h1, h2, h3⟩
    obtain ⟨-, ps, hp, -⟩ := id h3
    have := (C53_convert E rest w ⟨fun g => if g = o then some (ps.1.flatten.take (E.room o)) else w.files g, w.out, w.err⟩).2
      ⟨i, o, a, h1, (C104_operand hE hT _ _ _).2 h2, h3, ⟨ps, hp, if_pos rfl⟩, fun g hg => if_neg hg, rfl, rfl⟩
    rw [this]
  · intro k
    obtain ⟨i, r, c, h1, h2, h3, -⟩ := (C69_defects E rest w (main E ("defects".toList :: rest) w).1).1 (Prod.ext rfl k)
    exact ⟨i, r, c, h1, (C104_operand hE hT _ _ _).1 h2, h3⟩
  · rintro ⟨i, a, c, h1, h2, h3⟩
    rw [(C69_defects E rest w ⟨w.files, w.out ++ (defectLine (c 0) " isolated vertices\n" ++ defectLine (c 1) " non-manifold vertices\n" ++ defectLine (c 2) " boundary edges\n" ++ defectLine (c 3) " inconsistent edges\n" ++ defectLine (c 4) " non-manifold edges\n" ++ defectLine (c 5) " trivial degenerate faces\n" ++ defectLine (c 6) " non-trivial degenerate faces\n" ++ defectLine (c 7) " overlapping faces\n"), w.err⟩).2 ⟨i, a, c, h1, (C104_operand hE hT _ _ _).2 h2, h3, rfl, rfl, rfl⟩]
  · rw [C53_boolean_succeeds_iff]
    simp only [C104_operand hE hT]

/-- The run fails with an exception; it may have printed to the standard error output, and to the standard output what the reader of a text format says about a file that it refuses; nothing else has changed. -/
def FailsWith (E : Cli.Env Byte Pt Unit (Builder P3 Unit)) {α : Type} (x : Act Byte α) (w : World Byte) : Prop :=
  ∃ told pre m, (told = [] ∨ ∃ n, Cli.Complains E w.files n told) ∧ x w = ({ w with out := w.out ++ told, err := w.err ++ pre }, exn m)

/-- The reader of an argument that stands for nothing fails. -/
theorem refused (hE : Library h N E) (hT : TextReaders N M bits E) {n : Name} {w : World Byte} (hn : ∀ a, ¬ StandsFor N M bits E.readable w.files n a) :
    FailsWith E (readOrThrow E n) w ∨ (N.backend = .gmp ∧ HasFormat n .kigumi ∧ ∃ u, readOrThrow E n w = (w, ub u)) := by
  have hw : ({ w with out := w.out ++ [], err := w.err ++ [] } : World Byte) = w := by rw [List.append_nil, List.append_nil]
  have quiet : ∀ pre, ({ w with out := w.out ++ [], err := w.err ++ pre } : World Byte) = { w with err := w.err ++ pre } := fun pre => by rw [List.append_nil]
  have fail : ∀ w', Cli.readRegion E n w = (w', ok none) → readOrThrow E n w = (w', exn ("reading failed: " ++ String.ofList n)) := by
    intro w' e
    unfold readOrThrow Act.bind; rw [e]; rfl
  have throw : ∀ m, Cli.readRegion E n w = (w, exn m) → FailsWith E (readOrThrow E n) w := by
    intro m e
    refine ⟨[], [], m, .inl rfl, ?_⟩
    unfold readOrThrow Act.bind; rw [e, hw]
  obtain ⟨r1, r2, r3, r4, r5, r6⟩ := C53_read E n w
  obtain ⟨m, hm, -⟩ := C53_meaning n
  have closed : ∀ f, Means n (.file f) → (E.readable n = false ∨ w.files n = none) → FailsWith E (readOrThrow E n) w :=
    fun f hf hc => ⟨[], _, _, .inl rfl, by rw [quiet]; exact fail _ (r5 f hf hc)⟩
  cases hm with
  | empty e => exact absurd (.empty e) (hn _)
  | full e => exact absurd (.full e) (hn _)
  | unsupported h1 h2 h3 => exact .inl ⟨[], _, _, .inl rfl, by rw [quiet]; exact fail _ (r6 (.unsupported h1 h2 h3))⟩
  | file f hf =>
    cases hr : E.readable n with
    | false => exact .inl (closed f (.file f hf) (.inl hr))
    | true =>
      cases hc : w.files n with
      | none => exact .inl (closed f (.file f hf) (.inr hc))
      | some c =>
        by_cases hk : f = .kigumi
        · subst hk
          have e := r3 c (.file _ hf) hr hc
          cases hx : E.readKigumi c with
          | ok x =>
            cases x with
            | none => rw [hx] at e; exact .inl ⟨[], [], _, .inl rfl, by rw [hw]; exact fail _ e⟩
            | some a => exact absurd ((C104_operand hE hT _ _ _).1 (.inr (.inr ⟨c, hr, hc, .inl ⟨hf, hx⟩⟩))) (hn a)
          | exn m => rw [hx] at e; exact .inl (throw _ e)
          | ub u =>
            right
            refine ⟨?_, hf, u, ?_⟩
            · cases hb : N.backend with
              | gmp => rfl
              | boost =>
                exfalso
                obtain ⟨buf, e'⟩ := hE.read c
                rw [hx] at e'
                cases hy : IO.readRegion h N nullCodec .fresh ⟨⟨c, false, false⟩, buf⟩ with
                | ok y => rw [hy] at e'; cases e'
                | exn m => rw [hy] at e'; cases e'
                | ub m => exact IO.readRegion_defined h N hb nullCodec (IO.defined_ret ()) .fresh _ m hy
            · rw [hx] at e; unfold readOrThrow Act.bind; rw [e]
        · left
          have e := r4 f c hk (.file _ hf) hr hc
          cases hx : E.readSoup f c with
          | ok x =>
            cases x with
            | none => rw [hx] at e; exact ⟨(E.complaint f c).1, (E.complaint f c).2, _, .inr ⟨n, f, c, hk, hf, hr, hc, hx, rfl⟩, fail _ e⟩
            | some s =>
              rw [hx] at e
              change _ = (w, if s.faces = [] then _ else _) at e
              by_cases hs : s.faces = []
              · rw [if_pos hs] at e; exact throw _ e
              · exact absurd ((C104_operand hE hT _ _ _).1 (.inr (.inr ⟨c, hr, hc, .inr ⟨f, s, hk, hf, hx, hs, rfl⟩⟩))) (hn _)
          | exn m => rw [hx] at e; exact throw _ e
          | ub u => rw [hT f c hk] at hx; cases hx

/-- The run ends with status 1; it has printed a message, perhaps also what the reader of a text format says about a file that it refuses (the reader of OFF files uses the standard output), and nothing else has changed. -/
def EndsWithMessage (E : Cli.Env Byte Pt Unit (Builder P3 Unit)) (args : List Name) (w : World Byte) : Prop :=
  ∃ (told pre : List Char) (m : String), (told = [] ∨ ∃ n, Cli.Complains E w.files n told) ∧ main E args w = ({ w with out := w.out ++ told, err := w.err ++ pre ++ ("error: ".toList ++ m.toList ++ ['\n']) }, ok 1)

/-- The run is killed; nothing has changed. -/
def Dies (E : Cli.Env Byte Pt Unit (Builder P3 Unit)) (args : List Name) (w : World Byte) : Prop := ∃ u, main E args w = (w, ub u)

theorem command_ends {c : List Name → Act Byte Unit} {name : Name} (hc : (name, c) ∈ Cli.commands E) {rest : List Name} {w : World Byte} {P : Prop}
    (hr : FailsWith E (c rest) w ∨ (P ∧ ∃ u, c rest w = (w, ub u))) : EndsWithMessage E (name :: rest) w ∨ (P ∧ Dies E (name :: rest) w) := by
  rcases hr with ⟨told, pre, m, ht, e⟩ | ⟨hp, u, e⟩
  · exact .inl ⟨told, pre, m, ht, C53_exception_reported E rest w _ m c name hc e⟩
  · right
    refine ⟨hp, u, ?_⟩
    have run : ((c rest).bind fun _ => Act.ret 0) w = (w, (ub u : Outcome Nat)) := by unfold Act.bind; rw [e]
    unfold main
    dsimp only
    have hd : Cli.dispatch name rest (Cli.commands E) = (c rest).bind fun _ => Act.ret 0 := by
      unfold Cli.commands at hc ⊢
      rcases List.mem_cons.mp hc with hc | hc
      · cases hc; unfold Cli.dispatch; rw [if_pos rfl]
      · rcases List.mem_cons.mp hc with hc | hc
        · cases hc; unfold Cli.dispatch; rw [if_neg (by decide)]; unfold Cli.dispatch; rw [if_pos rfl]
        · cases List.mem_singleton.mp hc
          unfold Cli.dispatch; rw [if_neg (by decide)]; unfold Cli.dispatch; rw [if_neg (by decide)]; unfold Cli.dispatch; rw [if_pos rfl]
    rw [hd, run]
    rfl

/-- **Everything else is refused**: if an argument stands for no region, the program ends with status 1 and a message, and no file is created or changed; only a `.kigumi` file read with GMP can kill it. -/
theorem C104_refused (hE : Library h N E) (hT : TextReaders N M bits E) (rest : List Name) (w : World Byte) :
    (∀ i o, E.parseInOut rest = ok (i, o) → (∀ a, ¬ StandsFor N M bits E.readable w.files i a) →
      EndsWithMessage E ("convert".toList :: rest) w ∨ ((N.backend = .gmp ∧ HasFormat i .kigumi) ∧ Dies E ("convert".toList :: rest) w)) ∧
    (∀ i, E.parseIn rest = ok i → (∀ a, ¬ StandsFor N M bits E.readable w.files i a) →
      EndsWithMessage E ("defects".toList :: rest) w ∨ ((N.backend = .gmp ∧ HasFormat i .kigumi) ∧ Dies E ("defects".toList :: rest) w)) ∧
    (∀ o, E.parseBoolean rest = ok o → ((∀ a, ¬ StandsFor N M bits E.readable w.files o.first a) ∨ ∀ a, ¬ StandsFor N M bits E.readable w.files o.second a) →
      EndsWithMessage E ("boolean".toList :: rest) w ∨ ((N.backend = .gmp ∧ (HasFormat o.first .kigumi ∨ HasFormat o.second .kigumi)) ∧ Dies E ("boolean".toList :: rest) w)) := by
  have parse : ∀ {α : Type} (u : List Char) (x : α) (f : α → Act Byte Unit), ((Cli.parseOr u (ok x)).bind f) w = f x w := fun u x f => rfl
  have first : ∀ {n : Name} (f : Region Pt Unit → Act Byte Unit), (∀ a, ¬ StandsFor N M bits E.readable w.files n a) →
      FailsWith E ((readOrThrow E n).bind f) w ∨ ((N.backend = .gmp ∧ HasFormat n .kigumi) ∧ ∃ u, ((readOrThrow E n).bind f) w = (w, ub u)) := by
    intro n f hn
    rcases refused hE hT hn with ⟨told, pre, m, ht, e⟩ | ⟨h1, h2, u, e⟩
    · left; refine ⟨told, pre, m, ht, ?_⟩; unfold Act.bind; rw [e]
    · right; refine ⟨⟨h1, h2⟩, u, ?_⟩; unfold Act.bind; rw [e]
  refine ⟨fun i o hp hn => ?_, fun i hp hn => ?_, fun o hp hn => ?_⟩
  · refine command_ends (c := Cli.convertCommand E) (by unfold Cli.commands; simp) ?_
    unfold Cli.convertCommand FailsWith
    simp only [hp, parse]
    exact first _ hn
  · refine command_ends (c := Cli.defectsCommand E) (by unfold Cli.commands; simp) ?_
    unfold Cli.defectsCommand FailsWith
    simp only [hp, parse]
    exact first _ hn
  · refine command_ends (c := Cli.booleanCommand E) (by unfold Cli.commands; simp) ?_
    unfold Cli.booleanCommand FailsWith
    simp only [hp, parse]
    by_cases h1 : ∀ a, ¬ StandsFor N M bits E.readable w.files o.first a
    · exact (first _ h1).imp_right fun ⟨⟨k1, k2⟩, k3⟩ => ⟨⟨k1, .inl k2⟩, k3⟩
    · push Not at h1
      obtain ⟨a, ha⟩ := h1
      have e := (Cli.readOrThrow_ok (E := E) (n := o.first) (w := w) (w' := w)).2 ⟨rfl, (C104_operand hE hT _ _ a).2 ha⟩
      rw [show ∀ f : Region Pt Unit → Act Byte Unit, ((readOrThrow E o.first).bind f) w = f a w from fun f => by unfold Act.bind; rw [e]]
      exact (first _ (hn.resolve_left fun k => k a ha)).imp_right fun ⟨⟨k1, k2⟩, k3⟩ => ⟨⟨k1, .inr k2⟩, k3⟩

/-! ## Examples -/

/-- Some environment is as these theorems expect. -/
theorem C104_consistent (hE : Library h N E) (dbl : Pt → Option (Text.P3 F)) (inOut : Outcome (Name × Name)) :
    Library h N (withText N M bits dbl inOut E) ∧ TextReaders N M bits (withText N M bits dbl inOut E) :=
  ⟨⟨hE.read, hE.write, hE.build, hE.eval, hE.exact⟩, fun _ _ _ => rfl⟩

namespace Text104
open Text95

/-- The program `kigumi convert` with these names. -/
noncomputable def converter (h : Host) (i o : Name) : Cli.Env Byte Pt Unit (Builder P3 Unit) :=
  withText wholeNumbers Text.natDoubles (fun n => n) toNaturals (ok (i, o)) (someLibrary h wholeNumbers 1000 (exn "not used"))

theorem converter_is (h : Host) (i o : Name) : Library h wholeNumbers (converter h i o) ∧ TextReaders wholeNumbers Text.natDoubles (fun n => n) (converter h i o) :=
  C104_consistent (C87_consistent h _ _ _) _ _

/-- The file of the tetrahedron stands for it. -/
theorem block_stands (readable : Name → Bool) (hr : readable "block.off".toList = true) (files : Name → Option (List Byte)) (hf : files "block.off".toList = some (bytes blockFile)) :
    ∃ a, StandsFor wholeNumbers Text.natDoubles (fun n => n) readable files "block.off".toList a ∧ a.kind = .boundaryDefined ∧ a.boundary.faces = Complement.solid.boundary.faces :=
  ⟨_, .text (fmt := .off) ⟨"block".toList, by decide⟩ hr hf (C101_files block_mesh) ⟨_, List.mem_map_of_mem (by decide : ⟨0, 2, 1⟩ ∈ blockSoup.faces), by decide⟩, rfl, by
    show (blockSoup.faces.map corners3).flatMap Text.fan = _
    rw [fan_corners3]; rfl⟩

/-- It is converted, to any name with the extension of a text format. -/
example (h : Host) (w : World Byte) (hf : w.files "block.off".toList = some (bytes blockFile)) : (main (converter h "block.off".toList "b.obj".toList) ["convert".toList] w).2 = ok 0 := by
  obtain ⟨hE, hT⟩ := converter_is h "block.off".toList "b.obj".toList
  refine (C104_status hE hT [] w).1.2 ⟨_, _, _, rfl, .text (fmt := .off) ⟨"block".toList, by decide⟩ rfl hf (C101_files block_mesh) ⟨_, List.mem_map_of_mem (by decide : ⟨0, 2, 1⟩ ∈ blockSoup.faces), by decide⟩, rfl, _, .inr ⟨.obj, by decide, ⟨"b".toList, by decide⟩, rfl⟩, rfl, ?_⟩
  show (Cli.stream 1000 (fun _ _ => false) [bytes (writeText Text.natDoubles (fun p => (toNaturals p).getD (0, 0, 0)) .obj
    ⟨blockSoup.points.map (fromDoubles wholeNumbers fun n => n), (blockSoup.faces.map corners3).flatMap Text.fan, List.replicate ((blockSoup.faces.map corners3).flatMap Text.fan).length ()⟩)]).bad = false
  decide +kernel

/-- A file that ends after its first line is no argument. -/
theorem cut_stands (readable : Name → Bool) (files : Name → Option (List Byte)) (hf : files "cut.off".toList = some (bytes "OFF\n".toList)) (a : Region Pt Unit) :
    ¬ StandsFor wholeNumbers Text.natDoubles (fun n => n) readable files "cut.off".toList a := by
  have f1 : HasFormat "cut.off".toList .off := ⟨"cut".toList, by decide⟩
  intro k
  cases k with
  | empty e => exact absurd e (by decide)
  | full e => exact absurd e (by decide)
  | binary f2 => exact absurd (Cli.format_unique f1 f2) (by decide)
  | text f2 hr hc h1 =>
    obtain rfl := Cli.format_unique f1 f2
    rw [hf] at hc; cases hc
    rcases taken_or Text.natDoubles (fmt := .off) (by decide) (chars (bytes "OFF\n".toList)) with ⟨ps, fs, k, -, h3⟩ | ⟨h2, -⟩
    · have : (readText Text.natDoubles .off (chars (bytes "OFF\n".toList))).1 = false := by decide +kernel
      rw [h3] at this
      cases this
    · exact h2 ⟨_, _, h1⟩

/-- It is refused, although numbers are those of GMP. -/
example (h : Host) (w : World Byte) (hf : w.files "cut.off".toList = some (bytes "OFF\n".toList)) : EndsWithMessage (converter h "cut.off".toList "b.obj".toList) ["convert".toList] w := by
  obtain ⟨hE, hT⟩ := converter_is h "cut.off".toList "b.obj".toList
  rcases (C104_refused hE hT [] w).1 _ _ rfl (cut_stands _ _ hf) with k | ⟨⟨-, k⟩, -⟩
  · exact k
  · exact absurd (Cli.format_unique (⟨"cut".toList, by decide⟩ : HasFormat "cut.off".toList .off) k) (by decide)

end Text104

end Kigumi.Props
