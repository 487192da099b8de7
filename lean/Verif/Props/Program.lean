import Verif.Spec.Files
import Verif.Props.Cli
import Verif.Props.BinaryIO
import Verif.Props.Expressions
import Verif.Props.Blame

/-! # C87: the program, from files to files -/
namespace Kigumi.Props
open Kigumi Outcome Geo Spec.Triangles Spec.Side FaceFace Space
open Kigumi.Spec (HasCorners truth onSets RegionInv Expr)
open Kigumi.Spec.Cli (Wanted last HasFormat progressText)
open Kigumi.Spec.Files (Accepted Readable Says HoldsSet Combined)
open Kigumi.Corefine (Gives construct Operands both)
open Kigumi.IO (Host Numbers Pt RawRegion Byte nullCodec)
open Kigumi.Cli (World Name Options main)
open Kigumi.Program
variable {h : Host} {N : Numbers} {E : Cli.Env Byte Pt Unit (Builder P3 Unit)}

theorem combined_iff (op : Op) (A B : P3 → Prop) (x : P3) : Combined (truth op) A B x ↔ x ∈ onSets op {x | A x} {x | B x} := by
  classical
  constructor
  · rintro ⟨a, b, ha, hb, hf⟩
    exact (C01_truth_is_set_operation op {x | A x} {x | B x} x a b ha hb).1 hf
  · intro hx
    refine ⟨decide (A x), decide (B x), by simp, by simp, ?_⟩
    exact (C01_truth_is_set_operation op {x | A x} {x | B x} x _ _ (by simp) (by simp)).2 hx

theorem kindOf_code (k : Kind) : kindOf (code k) = k := by cases k <;> rfl
theorem code_le (k : Kind) : code k ≤ 2 := by cases k <;> decide

/-- What is read from the bytes of a region. -/
theorem stored_reads {h' : Host} {r : Region Pt Unit} (hx : ∀ p ∈ r.boundary.points, Exact N p) (hd : r.boundary.data.length = r.boundary.faces.length) {bs : List Byte} (e : IO.writeRegion h' N nullCodec (rawOf r) = ok bs) :
    ∃ raw, raw.kind ≤ 2 ∧ places (regionOf raw) = places r ∧ ∀ (g : Host) (rest buf : List Byte), ∃ st, IO.readRegion g N nullCodec .fresh ⟨⟨bs ++ rest, false, false⟩, buf⟩ = ok (true, raw, st) := by
  refine ⟨IO.appended N .fresh (rawOf r), code_le _, ?_, fun g rest buf => ?_⟩
  · obtain ⟨h1, h2, h3, h4⟩ := IO.appended_fresh N (rawOf r)
    have hp : (IO.appended N .fresh (rawOf r)).boundary.points.map place = r.boundary.points.map place := by
      refine (List.forall₂_eq_eq_eq ▸ (?_ : List.Forall₂ Eq _ _)).symm
      rw [List.forall₂_map_left_iff, List.forall₂_map_right_iff]
      refine List.Forall₂.imp ?_ h4
      rintro p q ⟨a, b, c⟩
      unfold place
      rw [a, b, c]
    unfold places regionOf
    rw [hp, ← h1, ← h2, ← h3]
    simp [rawOf, kindOf_code]
  · obtain ⟨buf', e'⟩ := IO.readRegion_reads (IO.reads_region (h' := g) IO.nullCodec_lawful (lt_of_le_of_lt (code_le _) (by decide)) hx hd (fun _ _ => trivial) e (t := .fresh) rfl) rest buf
    exact ⟨_, e'⟩

/-- Cut files are not accepted. -/
theorem stored_cut {h' : Host} {r : Region Pt Unit} (hx : ∀ p ∈ r.boundary.points, Exact N p) (hd : r.boundary.data.length = r.boundary.faces.length) {bs : List Byte} (e : IO.writeRegion h' N nullCodec (rawOf r) = ok bs) {n : Nat}
    (hn : n < bs.length) (raw : RawRegion Unit) : ¬ Accepted N (bs.take n) raw := by
  rintro ⟨g, buf, st, he⟩
  unfold IO.readRegion at he
  rw [if_neg (by simp)] at he
  obtain ⟨x, hx', he⟩ := IO.bind_ok he
  have := IO.cutNo_region (h' := g) (V := fun _ => True) IO.nullCodec_lawful (lt_of_le_of_lt (code_le _) (by decide)) hx hd (fun _ _ => trivial) e (t := .fresh) rfl n hn buf x.1 x.2 hx'
  have hg := IO.ended_not_good this
  injection he with he
  injection he with he _
  rw [hg] at he; cases he

/-- The bytes of a region hold its set. -/
theorem stored_holds {h' : Host} {r : Region Pt Unit} (hx : ∀ p ∈ r.boundary.points, Exact N p) {A S : P3 → Prop} (hr : Denotes (places r) A S) {bs : List Byte} (e : IO.writeRegion h' N nullCodec (rawOf r) = ok bs) :
    HoldsSet N bs A S := by
  have hd : r.boundary.data.length = r.boundary.faces.length := by
    obtain ⟨_, _, hs, -⟩ := hr
    exact hs.wf.1
  obtain ⟨raw, h1, h2, h3⟩ := stored_reads hx hd e
  refine ⟨fun g buf => ?_, ?_⟩
  · obtain ⟨st, h3⟩ := h3 g [] buf
    rw [List.append_nil] at h3
    exact ⟨raw, st, h3⟩
  · rintro raw' ⟨g, buf, st, he⟩
    obtain ⟨st', h3⟩ := h3 g [] buf
    rw [List.append_nil, he] at h3
    cases h3
    exact ⟨h1, h2 ▸ hr⟩

/-- What the program takes from a file is what the file says. -/
theorem says_reads (hE : Library h N E) {files : Name → Option (List Byte)} {n : Name} {c : List Byte} (hf : HasFormat n .kigumi) (hc : files n = some c) {A S : P3 → Prop} (hh : Says N c A S) {a : Region Pt Unit} (ha : Cli.Reads E files n a) :
    Denotes (places a) A S := by
  rcases ha with ⟨hn, -⟩ | ⟨hn, -⟩ | ⟨c', -, hc', ⟨-, hr⟩ | ⟨fmt, -, hk, hn, -⟩⟩
  · obtain ⟨stem, rfl⟩ := hf
    exact absurd (congrArg List.getLast? hn) (by simp [Spec.Cli.ext])
  · obtain ⟨stem, rfl⟩ := hf
    exact absurd (congrArg List.getLast? hn) (by simp [Spec.Cli.ext])
  · rw [hc] at hc'; cases hc'
    obtain ⟨buf, e⟩ := hE.read c
    rw [e] at hr
    obtain ⟨⟨b, raw, st⟩, e', hr⟩ := IO.bind_ok hr
    cases b with
    | false => cases hr
    | true =>
      obtain rfl : regionOf raw = a := by injection hr with hr; injection hr
      exact (hh raw ⟨h, buf, st, e'⟩).2
  · exact absurd (Cli.format_unique hn hf) hk

/-- A file that holds a region can be read. -/
theorem holds_reads (hE : Library h N E) {files : Name → Option (List Byte)} {n : Name} {c : List Byte} (hf : HasFormat n .kigumi) (hr : E.readable n = true) (hc : files n = some c) (hh : Readable N c) : ∃ a, Cli.Reads E files n a := by
  obtain ⟨buf, e⟩ := hE.read c
  obtain ⟨raw, st, e'⟩ := hh h buf
  refine ⟨regionOf raw, .inr (.inr ⟨c, hr, hc, .inl ⟨hf, ?_⟩⟩)⟩
  rw [e, e']
  rfl

/-- The outputs of a run, given what the builder does. -/
theorem run_outputs (hE : Library h N E) {rest : List Name} {w w' : World Byte} (hm : main E ("boolean".toList :: rest) w = (w', ok 0)) {o : Options} (ho : E.parseBoolean rest = ok o) {a b : Region Pt Unit}
    (ha : Cli.Reads E w.files o.first a) (hb : Cli.Reads E w.files o.second b) {A B S : P3 → Prop}
    (H : ∀ bb v, Builds (places a) (places b) bb v → ∀ op, v = .none ∧ ∃ r, bb.run op true = ok r ∧ Denotes r (fun x => x ∈ onSets op {x | A x} {x | B x}) S) :
    w'.err = w.err ∧ w'.out = w.out ++ progressText a b ∧ (∀ g, last o g = none → w'.files g = w.files g) ∧
    ∀ g f, last o g = some f → HasFormat g .kigumi → ∃ bs, HoldsSet N bs (Combined f A B) S ∧ w'.files g = some (bs.take (E.room g)) ∧ (E.room g < bs.length → ∀ raw, ¬ Accepted N (bs.take (E.room g)) raw) := by
  obtain ⟨o', a', b', bb, v, h1, h2, h3, h4, h5, h6, h7⟩ := C53_boolean_files E rest w w' hm
  rw [ho] at h1; cases h1
  obtain rfl := Cli.reads_unique ha h2
  obtain rfl := Cli.reads_unique hb h3
  have hB := hE.build _ _ _ _ h4
  refine ⟨?_, h6, fun g hg => ?_, fun g f hg hf => ?_⟩
  · have hv := (H bb v hB .K).1
    rw [h7, hv]
    simp [Global.Warnings.none]
  · have := h5 g
    rw [hg] at this
    exact this
  · have := h5 g
    rw [hg] at this
    obtain ⟨op, r, ps, rfl, h8, h9, h10, h11⟩ := this
    obtain ⟨-, r', hr', hd⟩ := H bb v hB op
    have he := hE.eval bb op
    rw [h8, hr'] at he
    replace he : places r = r' := by injection he
    subst he
    have hx := hE.exact bb op r h8
    have hps : ps = E.kigumiPieces r := Cli.prints_unique h9 (.inl ⟨hf, rfl⟩)
    subst hps
    obtain ⟨hw1, hw2⟩ := hE.write r
    rw [h10] at hw2
    cases hbs : IO.writeRegion h N nullCodec (rawOf r) with
    | exn m => rw [hbs] at hw2; cases hw2
    | ub m => rw [hbs] at hw2; cases hw2
    | ok bs =>
      refine ⟨bs, ?_, by rw [h11, hw1 bs hbs], fun hlt raw => ?_⟩
      · refine stored_holds hx ?_ hbs
        have : (Combined (truth op) A B) = fun x => x ∈ onSets op {x | A x} {x | B x} := funext fun x => propext (combined_iff op A B x)
        rw [this]; exact hd
      · obtain ⟨_, _, hs, -⟩ := hd
        exact stored_cut hx hs.wf.1 hbs hlt raw

/-! ## C87 -/

/-- **Boolean operations of files.** The operands are what the program reads from two files (or `:empty:`, `:full:`); they are solids, in places as general as C73 demands. If the program ends with status 0, it has printed only the lines about its progress, has changed no file that was
not asked for, and every `.kigumi` file that was asked for is the file of a region which is the set asked for, apart from points of the two given surfaces; whoever reads it gets this set, on any host. If the device has not taken the whole file, nobody can read it. -/
theorem C87_boolean (hE : Library h N E) {rest : List Name} {w w' : World Byte} (hm : main E ("boolean".toList :: rest) w = (w', ok 0)) {o : Options} (ho : E.parseBoolean rest = ok o) {a b : Region Pt Unit}
    (ha : Cli.Reads E w.files o.first a) (hb : Cli.Reads E w.files o.second b) {orig : Bool → List (Tri P3)} {χ : Bool → P3 → Prop} (hsa : IsSolid (places a) (orig true) (χ true)) (hsb : IsSolid (places b) (orig false) (χ false))
    (hg : NoFourOnCircle orig) (hman : ManifoldWhereCoinciding orig) :
    w'.err = w.err ∧ w'.out = w.out ++ progressText a b ∧ (∀ g, last o g = none → w'.files g = w.files g) ∧
    ∀ g f, last o g = some f → HasFormat g .kigumi → ∃ bs, HoldsSet N bs (Combined f (χ true) (χ false)) (fun x => Surface (orig true) x ∨ Surface (orig false) x) ∧ w'.files g = some (bs.take (E.room g)) ∧
      (E.room g < bs.length → ∀ raw, ¬ Accepted N (bs.take (E.room g)) raw) := by
  refine run_outputs hE hm ho ha hb fun bb v hB op => ?_
  obtain ⟨E0, E', hv, hbb⟩ := hB
  obtain ⟨v1, v2⟩ := hv orig hsa.corners hsb.corners
  exact C73_boolean hsa hsb v1 hg hman v2 hbb op true

/-- A solid is a set apart from the points of its surface. -/
theorem solid_denotes {r : Region P3 Unit} {ts : List (Tri P3)} {χ : P3 → Prop} (hr : IsSolid r ts χ) : Denotes r χ (Surface ts) := ⟨ts, χ, hr, fun _ hx => hx, fun _ _ => Iff.rfl⟩

/-- All who succeed in reading the bytes get the result of an expression. -/
def SaysExpr (N : Numbers) (tris : Nat → List (Tri P3)) (χ : Nat → P3 → Prop) (c : List Byte) (e : Expr) : Prop :=
  Says N c (fun x => x ∈ e.value fun i => {x | χ i x}) fun x => ∃ i ∈ e.leaves, Surface (tris i) x

/-- **Results are operands of further runs.** The files of the operands say what sets two expressions denote, and no surface of a set that occurs in one overlaps with one in the other. If the program ends with status 0, a `.kigumi` file for the operator `op` says what set the
expression made of `op` and the two expressions denotes, and it can be read if it does not fill its device. -/
theorem C87_step (hE : Library h N E) {rest : List Name} {w w' : World Byte} (hm : main E ("boolean".toList :: rest) w = (w', ok 0)) {o : Options} (ho : E.parseBoolean rest = ok o) {tris : Nat → List (Tri P3)} {χ : Nat → P3 → Prop}
    {c1 c2 : List Byte} {e1 e2 : Expr} (h1 : w.files o.first = some c1) (h2 : w.files o.second = some c2) (k1 : HasFormat o.first .kigumi) (k2 : HasFormat o.second .kigumi) (s1 : SaysExpr N tris χ c1 e1) (s2 : SaysExpr N tris χ c2 e2)
    (hno : ∀ i ∈ e1.leaves, ∀ j ∈ e2.leaves, NoOverlap (both (tris i) (tris j))) {g : Name} (hf : HasFormat g .kigumi) {op : Op} (hl : last o g = some (truth op)) :
    w'.err = w.err ∧ ∃ c, w'.files g = some c ∧ SaysExpr N tris χ c (.node op true e1 e2) ∧ (c.length < E.room g → Readable N c) := by
  obtain ⟨o', a, b, bb, v, g1, ra, rb, -⟩ := C53_boolean_files E rest w w' hm
  rw [ho] at g1; cases g1
  obtain ⟨he, -, -, hfile⟩ := run_outputs (A := fun x => x ∈ e1.value fun i => {x | χ i x}) (B := fun x => x ∈ e2.value fun i => {x | χ i x}) (S := fun x => ∃ i ∈ e1.leaves ++ e2.leaves, Surface (tris i) x) hE hm ho ra rb fun bb v hB op => by
    obtain ⟨E0, E', hv, hbb⟩ := hB
    exact step_right (A := e1.value fun i => {x | χ i x}) (B := e2.value fun i => {x | χ i x}) hno (says_reads hE k1 h1 s1 ra) (says_reads hE k2 h2 s2 rb) hv hbb op true
  obtain ⟨bs, hbs, hw, hcut⟩ := hfile g _ hl hf
  have : (Combined (truth op) (fun x => x ∈ e1.value fun i => {x | χ i x}) fun x => x ∈ e2.value fun i => {x | χ i x}) = fun x => x ∈ (Expr.node op true e1 e2).value fun i => {x | χ i x} := funext fun x => propext (combined_iff op _ _ x)
  rw [this] at hbs
  refine ⟨he, _, hw, ?_⟩
  by_cases hlt : E.room g < bs.length
  · refine ⟨fun raw hr => absurd hr (hcut hlt raw), fun hc => ?_⟩
    rw [List.length_take] at hc
    omega
  · rw [List.take_of_length_le (by omega)]
    exact ⟨hbs.2, fun _ => hbs.1⟩

/-- A script of runs of the program that all end with status 0, and what its files are meant to be: `T` at the beginning, `T'` at the end. A file for which a run was asked is the result of an expression, other files remain. Operands of a run are files of expressions that have
no operands in common. -/
inductive Script (E : Cli.Env Byte Pt Unit (Builder P3 Unit)) : World Byte → (Name → Option Expr) → World Byte → (Name → Option Expr) → Prop
  | nil (w : World Byte) (T : Name → Option Expr) : Script E w T w T
  | run {w w' w'' : World Byte} {T T' T'' : Name → Option Expr} {rest : List Name} {o : Options} {e1 e2 : Expr} : Script E w T w' T' → main E ("boolean".toList :: rest) w' = (w'', ok 0) → E.parseBoolean rest = ok o →
      T' o.first = some e1 → T' o.second = some e2 → (∀ i ∈ e1.leaves, i ∉ e2.leaves) →
      (∀ g e, T'' g = some e → (last o g = none ∧ T' g = some e) ∨ ∃ op, last o g = some (truth op) ∧ HasFormat g .kigumi ∧ e = .node op true e1 e2) → Script E w T w'' T''

/-- **Scripts evaluate expressions.** No faces of different operands have a triangle in common. If all runs of a script end with status 0, whoever reads one of its files successfully gets the set that the expression denotes, apart from points of the surfaces of its operands;
and the script prints nothing to standard error. -/
theorem C87_script (hE : Library h N E) {tris : Nat → List (Tri P3)} {χ : Nat → P3 → Prop} (hno : ∀ i j, i ≠ j → NoOverlap (both (tris i) (tris j))) {w w' : World Byte} {T T' : Name → Option Expr} (hs : Script E w T w' T')
    (hT : ∀ n e, T n = some e → HasFormat n .kigumi ∧ ∃ c, w.files n = some c ∧ SaysExpr N tris χ c e) :
    w'.err = w.err ∧ ∀ n e, T' n = some e → HasFormat n .kigumi ∧ ∃ c, w'.files n = some c ∧ SaysExpr N tris χ c e := by
  induction hs with
  | nil T => exact ⟨rfl, hT⟩
  | @run w' w'' T T' T'' rest o e1 e2 _ hm ho t1 t2 hdis hT'' ih =>
    obtain ⟨herr, ih⟩ := ih hT
    obtain ⟨k1, c1, f1, s1⟩ := ih _ _ t1
    obtain ⟨k2, c2, f2, s2⟩ := ih _ _ t2
    have hno' : ∀ i ∈ e1.leaves, ∀ j ∈ e2.leaves, NoOverlap (both (tris i) (tris j)) := fun i hi j hj => hno i j fun e => hdis i hi (e ▸ hj)
    obtain ⟨o', a, b, bb, v, g1, ra, rb, -⟩ := C53_boolean_files E rest w' w'' hm
    rw [ho] at g1; cases g1
    obtain ⟨he, -, hframe, -⟩ := run_outputs (A := fun x => x ∈ e1.value fun i => {x | χ i x}) (B := fun x => x ∈ e2.value fun i => {x | χ i x}) (S := fun x => ∃ i ∈ e1.leaves ++ e2.leaves, Surface (tris i) x) hE hm ho ra rb fun bb v hB op => by
      obtain ⟨E0, E', hv, hbb⟩ := hB
      exact step_right (A := e1.value fun i => {x | χ i x}) (B := e2.value fun i => {x | χ i x}) hno' (says_reads hE k1 f1 s1 ra) (says_reads hE k2 f2 s2 rb) hv hbb op true
    refine ⟨he.trans herr, fun n e hn => ?_⟩
    rcases hT'' n e hn with ⟨hl, hn'⟩ | ⟨op, hl, hk, rfl⟩
    · obtain ⟨k, c, f, s⟩ := ih n e hn'
      exact ⟨k, c, (hframe n hl).trans f, s⟩
    · obtain ⟨-, c, f, s, -⟩ := C87_step hE hm ho f1 f2 k1 k2 s1 s2 hno' hk hl
      exact ⟨hk, c, f, s⟩

/-- **Files that are written are read.** The bytes of a region that is a set, written on any host, say so, and the program reads them if it may. -/
theorem C87_stored (hE : Library h N E) {h' : Host} {r : Region Pt Unit} (hx : ∀ p ∈ r.boundary.points, Exact N p) {A S : P3 → Prop} (hr : Denotes (places r) A S) {bs : List Byte} (e : IO.writeRegion h' N nullCodec (rawOf r) = ok bs) :
    HoldsSet N bs A S ∧ ∀ (files : Name → Option (List Byte)) (n : Name), HasFormat n .kigumi → E.readable n = true → files n = some bs → ∃ a, Cli.Reads E files n a ∧ Denotes (places a) A S := by
  have hh := stored_holds hx hr e
  refine ⟨hh, fun files n hf hrd hc => ?_⟩
  obtain ⟨a, ha⟩ := holds_reads hE hf hrd hc hh.1
  exact ⟨a, ha, says_reads hE hf hc hh.2 ha⟩

/-- **Convex operands**: for convex solids whose faces do not overlap, the builder does not fail, and the program ends with status 0 if its results can be written. -/
theorem C87_convex (hE : Library h N E) {rest : List Name} {w : World Byte} {o : Options} (ho : E.parseBoolean rest = ok o) {a b : Region Pt Unit} (ha : Cli.Reads E w.files o.first a) (hb : Cli.Reads E w.files o.second b)
    {orig : Bool → List (Tri P3)} {χ : Bool → P3 → Prop} (hsa : IsSolid (places a) (orig true) (χ true)) (hsb : IsSolid (places b) (orig false) (χ false)) (hno : NoOverlap orig) (hc : ∀ c, ConvexSet fun x => χ c x ∨ Surface (orig c) x)
    (hf : (∀ x, E.build a b ≠ ok x) → Breaks (places a) (places b)) (hw : ∀ op n bb v r, Wanted o (truth op) n → E.build a b = ok (bb, v) → E.eval bb op = ok r → Cli.Writes E n r) : (main E ("boolean".toList :: rest) w).2 = ok 0 := by
  rw [C53_boolean_succeeds_iff]
  have hk : ∃ x, E.build a b = ok x := by
    by_contra hne
    obtain ⟨E0, E', hv, hbr⟩ := hf fun x hx => hne ⟨x, hx⟩
    obtain ⟨v1, v2⟩ := hv orig hsa.corners hsb.corners
    obtain ⟨c1, ⟨bb, u, c2⟩, -⟩ := C79_convex hsa hsb v1 v2 hno hc
    split at hbr
    · next ht =>
      unfold Mix.Built at c2
      rw [if_pos ht] at c2
      exact hbr bb c2.1
    · next ht =>
      have hkind : ∀ r : Region P3 Unit, r.isEmptyOrFull = false → r.kind = .boundaryDefined := by
        intro r hr
        unfold Region.isEmptyOrFull Region.isEmpty Region.isFull at hr
        cases hkr : r.kind <;> simp [hkr] at hr ⊢
      simp only [Bool.or_eq_true, not_or, Bool.not_eq_true] at ht
      rcases hbr with ⟨x, hx1, hx2⟩ | ⟨m0, border, g1, g2⟩
      · have hops := solid_operands (orig := orig) (χ := χ) hsa hsb
        rcases (C84_blame hops.soups v1).2 x hx1 with ⟨st, rfl⟩ | ⟨-, hn⟩ | ⟨-, hn⟩
        · exact hx2 st rfl
        · exact hn (hops.complex true)
        · exact hn (hops.complex false)
      · exact c1 (hkind _ ht.1) (hkind _ ht.2) m0 border g1 g2
  obtain ⟨⟨bb, v⟩, hk⟩ := hk
  refine ⟨o, a, b, bb, v, ho, ha, hb, hk, fun op n hn => ?_⟩
  obtain ⟨E0, E', hv, hbb⟩ := hE.build _ _ _ _ hk
  obtain ⟨v1, v2⟩ := hv orig hsa.corners hsb.corners
  obtain ⟨-, r', hr', -⟩ := C79_boolean hsa hsb v1 v2 hno hbb op true
  have he := hE.eval bb op
  rw [hr'] at he
  obtain ⟨r, hr, -⟩ := IO.bind_ok he
  exact ⟨r, hr, hw op n bb v r hn hk hr⟩

/-! ## An environment, and a run -/

/-- Coordinates that have been computed exactly. -/
def spread (r : Region P3 Unit) : Region Pt Unit := ⟨r.kind, ⟨r.boundary.points.map fun p => ⟨⟨p.x, none⟩, ⟨p.y, none⟩, ⟨p.z, none⟩⟩, r.boundary.faces, r.boundary.data⟩⟩

theorem places_spread (r : Region P3 Unit) : places (spread r) = r := by
  obtain ⟨k, ps, fs, ds⟩ := r
  unfold places spread
  simp only [List.map_map]
  congr 2
  exact (List.map_congr_left fun p _ => rfl).trans (List.map_id ps)

theorem spread_exact (N : Numbers) (r : Region P3 Unit) : ∀ p ∈ (spread r).boundary.points, Exact N p := by
  intro p hp c hc b hb
  obtain ⟨q, -, rfl⟩ := List.mem_map.1 hp
  rcases hc with rfl | rfl | rfl <;> cases hb

/-- All bytes in one piece. -/
def atOnce : Outcome (List Byte) → List (List Byte) × Outcome Unit
  | ok bs => ([bs], ok ())
  | exn m => ([], exn m)
  | ub m => ([], ub m)

theorem atOnce_prints (o : Outcome (List Byte)) : Prints (atOnce o) o := by
  cases o with
  | ok bs => exact ⟨fun cs hc => by injection hc with hc; simp [atOnce, hc], rfl⟩
  | exn m => exact ⟨fun cs hc => by injection hc, rfl⟩
  | ub m => exact ⟨fun cs hc => by injection hc, rfl⟩

open Classical in
/-- An environment with the library, in which all files can be read and written, the options are as given, and other formats are not supported. -/
noncomputable def someLibrary (h : Host) (N : Numbers) (room : Nat) (o : Outcome Options) : Cli.Env Byte Pt Unit (Builder P3 Unit) where
  readable _ := true
  creatable _ := true
  room _ := room
  flush _ _ := false
  readSoup _ _ := ok none
  complaint _ _ := ([], [])
  readKigumi bs := (IO.readRegion h N nullCodec .fresh ⟨⟨bs, false, false⟩, []⟩).bind fun x => ok (if x.1 then some (regionOf x.2.1) else none)
  soupPieces _ _ := ([], exn "not supported")
  kigumiPieces r := atOnce (IO.writeRegion h N nullCodec (rawOf r))
  parseBoolean _ := o
  parseIn _ := exn "not supported"
  parseInOut _ := exn "not supported"
  booleanUsage := []
  convertUsage := []
  defectsUsage := []
  mainUsage := []
  build a b := if H : ∃ x : Builder P3 Unit × Global.Warnings, Builds (places a) (places b) x.1 x.2 then ok H.choose else exn "not supported"
  stages _ _ := 0
  eval bb op := (bb.run op true).bind fun r => ok (spread r)
  defects _ := exn "not supported"

theorem someLibrary_build {room : Nat} {o : Outcome Options} {a b : Region Pt Unit} {bb : Builder P3 Unit} {v : Global.Warnings} (hb : (someLibrary h N room o).build a b = ok (bb, v)) : Builds (places a) (places b) bb v := by
  unfold someLibrary at hb
  dsimp only at hb
  split at hb
  · next H =>
    have := H.choose_spec
    rw [show H.choose = (bb, v) by injection hb] at this
    exact this
  · injection hb

theorem someLibrary_eval (room : Nat) (o : Outcome Options) (bb : Builder P3 Unit) (op : Op) : (((someLibrary h N room o).eval bb op).bind fun r => ok (places r)) = bb.run op true := by
  unfold someLibrary
  dsimp only
  cases bb.run op true with
  | ok r => simp [Outcome.bind, places_spread]
  | exn m => rfl
  | ub m => rfl

theorem someLibrary_exact {room : Nat} {o : Outcome Options} {bb : Builder P3 Unit} {op : Op} {r : Region Pt Unit} (hr : (someLibrary h N room o).eval bb op = ok r) : ∀ p ∈ r.boundary.points, Exact N p := by
  obtain ⟨r', -, hr⟩ := IO.bind_ok hr
  obtain rfl : spread r' = r := by injection hr
  exact spread_exact N r'

theorem someLibrary_read (room : Nat) (o : Outcome Options) (bs : List Byte) : (someLibrary h N room o).readKigumi bs = (IO.readRegion h N nullCodec .fresh ⟨⟨bs, false, false⟩, []⟩).bind fun x => ok (if x.1 then some (regionOf x.2.1) else none) := by
  unfold someLibrary
  dsimp only

theorem someLibrary_write (room : Nat) (o : Outcome Options) (r : Region Pt Unit) : Prints ((someLibrary h N room o).kigumiPieces r) (IO.writeRegion h N nullCodec (rawOf r)) := by
  unfold someLibrary
  dsimp only
  exact atOnce_prints _

/-- Some environment is as these theorems expect. -/
theorem C87_consistent (h : Host) (N : Numbers) (room : Nat) (o : Outcome Options) : Library h N (someLibrary h N room o) := by
  constructor
  · exact fun bs => ⟨[], someLibrary_read room o bs⟩
  · exact fun r => someLibrary_write room o r
  · exact fun _ _ _ _ hb => someLibrary_build hb
  · exact fun bb op => someLibrary_eval room o bb op
  · exact fun _ _ _ hr => someLibrary_exact hr

namespace Complement

/-- A tetrahedron. -/
def solid : Region P3 Unit := simplex ⟨0, 0, 0⟩ ⟨8, 0, 0⟩ ⟨0, 8, 0⟩ ⟨0, 0, 8⟩

/-- `kigumi boolean :full: block.kigumi --sym rest.kigumi` -/
def options : Options := ⟨":full:".toList, "block.kigumi".toList, none, none, none, some "rest.kigumi".toList⟩

theorem solid_is : IsSolid (places (spread solid)) block (Within block) := by
  rw [places_spread]
  exact simplex_is (by decide +kernel)

theorem full_is : IsSolid (places (Region.fullRegion : Region Pt Unit)) [] (fun _ => True) where
  inv := rfl
  wf := ⟨rfl, by simp [places, Region.fullRegion, Soup.empty]⟩
  corners := .nil
  complex := ⟨fun t ht => by simp at ht, fun t ht => by simp at ht⟩
  once := fun _ _ _ _ h => by simp at h
  bounds := ⟨fun _ _ _ => Iff.rfl, fun _ _ _ h => by simp at h⟩
  kind := fun _ => trivial

theorem short {q : ℚ} (h1 : q.num.natAbs < 256) (h2 : q.den < 256) : IO.ShortRat q := ⟨⟨1, by decide, by simpa using h1⟩, ⟨1, by decide, by simpa using h2⟩⟩

/-- Regions with a few vertices like those of the tetrahedron can be written. -/
theorem storable (N : Numbers) {r : Region P3 Unit} (hp : r.boundary.points.length ≤ 4 ∧ ∀ p ∈ r.boundary.points, p ∈ solid.boundary.points) (hf : r.boundary.faces.length ≤ 4 ∧ ∀ f ∈ r.boundary.faces, f.a < 4 ∧ f.b < 4 ∧ f.c < 4)
    (hd : r.boundary.data.length = r.boundary.faces.length) : IO.Storable N (fun _ => True) (rawOf (spread r)) where
  kind := lt_of_le_of_lt (code_le _) (by decide)
  vertices := by simp only [rawOf, spread, List.length_map]; omega
  faces := by simp only [rawOf, spread]; omega
  coordinates p h := by
    refine ⟨spread_exact N r p h, ?_⟩
    obtain ⟨q, hq, rfl⟩ := List.mem_map.1 h
    have := hp.2 q hq
    simp only [solid, simplex, List.mem_cons, List.not_mem_nil, or_false] at this
    rcases this with rfl | rfl | rfl | rfl <;> refine ⟨short ?_ ?_, short ?_ ?_, short ?_ ?_⟩ <;> decide +kernel
  indices f h := by have := hf.2 f h; omega
  data := hd
  data_ok _ _ := trivial

/-- The complement: the faces are inverted. -/
def inverse : Region P3 Unit := ⟨.boundaryDefined, ⟨[⟨8, 0, 0⟩, ⟨0, 8, 0⟩, ⟨0, 0, 8⟩, ⟨0, 0, 0⟩], [⟨0, 2, 1⟩, ⟨3, 1, 2⟩, ⟨3, 2, 0⟩, ⟨3, 0, 1⟩], List.replicate 4 ()⟩⟩

theorem run_solid : ∃ bb, Builder.make (fun _ _ => exn "not called") (Region.fullRegion : Region P3 Unit) solid = ok bb ∧ bb.run .symmetricDifference true = ok inverse := by
  have : (Builder.make (fun _ _ => exn "not called") (Region.fullRegion : Region P3 Unit) solid).bind (fun bb => bb.run .symmetricDifference true) = ok inverse := by decide +kernel
  exact IO.bind_ok this

theorem whole_convex : ConvexSet fun x => (fun _ : P3 => True) x ∨ Surface [] x := fun _ _ _ _ _ _ => Or.inl trivial

/-- What the program does with a file of the tetrahedron that was written on some host: there is a file of the complement afterwards. -/
theorem complement (h h' : Host) (N : Numbers) : ∃ (room : Nat) (bs : List Byte), IO.writeRegion h' N nullCodec (rawOf (spread solid)) = ok bs ∧ ∀ w : World Byte, w.files "block.kigumi".toList = some bs →
    ∃ w', main (someLibrary h N room (ok options)) ["boolean".toList] w = (w', ok 0) ∧ w'.err = w.err ∧ w'.files "block.kigumi".toList = some bs ∧
      ∃ c, w'.files "rest.kigumi".toList = some c ∧ HoldsSet N c (fun x => ¬ Within block x) (Surface block) := by
  obtain ⟨bs, hbs⟩ := IO.writeRegion_storable h' nullCodec (storable N (r := solid) (by decide +kernel) (by decide +kernel) rfl)
  obtain ⟨cs, hcs⟩ := IO.writeRegion_storable h nullCodec (storable N (r := inverse) (by decide +kernel) (by decide +kernel) rfl)
  refine ⟨cs.length, bs, hbs, fun w hw => ?_⟩
  have hE := C87_consistent h N cs.length (ok options)
  have f1 : HasFormat "block.kigumi".toList .kigumi := ⟨"block".toList, by decide⟩
  have f2 : HasFormat "rest.kigumi".toList .kigumi := ⟨"rest".toList, by decide⟩
  obtain ⟨raw, -, hraw, hread⟩ := stored_reads (spread_exact N solid) rfl hbs
  have hb : Cli.Reads (someLibrary h N cs.length (ok options)) w.files options.second (regionOf raw) := by
    obtain ⟨st, e⟩ := hread h [] []
    refine .inr (.inr ⟨bs, rfl, hw, .inl ⟨f1, ?_⟩⟩)
    rw [someLibrary_read]
    rw [List.append_nil] at e
    rw [e]
    rfl
  have ha : Cli.Reads (someLibrary h N cs.length (ok options)) w.files options.first Region.fullRegion := .inr (.inl ⟨rfl, rfl⟩)
  have hsb : IsSolid (places (regionOf raw)) block (Within block) := hraw ▸ solid_is
  have hplaces : places (regionOf raw) = solid := hraw.trans (places_spread solid)
  have horig : ∀ orig : Bool → List (Tri P3), HasCorners (Region.fullRegion : Region P3 Unit).boundary.points (Region.fullRegion : Region P3 Unit).boundary.faces (orig true) → HasCorners solid.boundary.points solid.boundary.faces (orig false) → orig = both [] block := by
    intro orig o1 o2
    funext c
    cases c
    · exact hasCorners_unique o2 (simplex_is (by decide +kernel)).corners
    · exact hasCorners_unique o1 .nil
  have hproper : ∀ c, ∀ t ∈ both [] block c, Proper t := by
    intro c
    cases c
    · exact tetra_proper (by decide +kernel)
    · intro t ht; exact absurd ht (by simp [both])
  obtain ⟨bb0, hbb0, hrun0⟩ := run_solid
  have hB : Builds (places (Region.fullRegion : Region Pt Unit)) (places (regionOf raw)) bb0 .none := by
    rw [hplaces]
    refine ⟨Corefine.exactEnv (both [] block), someEnv (both [] block), fun orig o1 o2 => ?_, ?_⟩
    · rw [horig orig o1 o2]
      exact ⟨C74_consistent _, C70_consistent hproper⟩
    · unfold Mix.Built
      exact ⟨hbb0, rfl⟩
  have hbuild : ∃ x, (someLibrary h N cs.length (ok options)).build Region.fullRegion (regionOf raw) = ok x := by
    unfold someLibrary
    dsimp only
    rw [dif_pos ⟨(bb0, .none), hB⟩]
    exact ⟨_, rfl⟩
  have hev : ∀ op n bb v r, Wanted options (truth op) n → (someLibrary h N cs.length (ok options)).build Region.fullRegion (regionOf raw) = ok (bb, v) → (someLibrary h N cs.length (ok options)).eval bb op = ok r →
      r = spread inverse ∧ n = "rest.kigumi".toList := by
    intro op n bb v r hn hb' hr
    have hn := outputs_wanted.2 hn
    simp only [Cli.outputs, options, List.mem_cons, Prod.mk.injEq, reduceCtorEq, and_false, Option.some.injEq, List.not_mem_nil, or_false, false_or] at hn
    obtain ⟨rfl, rfl⟩ := hn
    obtain ⟨E0, E', -, hbb⟩ := someLibrary_build hb'
    rw [hplaces] at hbb
    obtain ⟨hmk, -⟩ : Builder.make (fun _ _ => exn "not called") (Region.fullRegion : Region P3 Unit) solid = ok bb ∧ v = .none := hbb
    obtain rfl : bb0 = bb := by rw [hbb0] at hmk; injection hmk
    obtain ⟨r', hr', hr⟩ := IO.bind_ok hr
    rw [hrun0] at hr'
    obtain rfl : inverse = r' := by injection hr'
    obtain rfl : spread inverse = r := by injection hr
    exact ⟨rfl, rfl⟩
  have hwr : ∀ op n bb v r, Wanted options (truth op) n → (someLibrary h N cs.length (ok options)).build Region.fullRegion (regionOf raw) = ok (bb, v) → (someLibrary h N cs.length (ok options)).eval bb op = ok r →
      Cli.Writes (someLibrary h N cs.length (ok options)) n r := by
    intro op n bb v r hn hb' hr
    obtain ⟨rfl, rfl⟩ := hev op n bb v r hn hb' hr
    refine ⟨rfl, _, .inl ⟨f2, rfl⟩, ?_, ?_⟩
    · rw [(hE.write (spread inverse)).2, hcs]
      rfl
    · show (Cli.stream cs.length (fun _ _ => false) (atOnce (IO.writeRegion h N nullCodec (rawOf (spread inverse)))).1).bad = false
      rw [hcs]
      rfl
  have hno : NoOverlap (both [] block) := fun t ht => absurd ht (by simp [both])
  have hmain := C87_convex (rest := []) (χ := fun c => if c then fun _ => True else Within block) (orig := both [] block) hE rfl ha hb full_is hsb hno (by
    intro c
    cases c
    · exact within_convexSet (tetra_convex (by decide +kernel))
    · exact whole_convex) (fun hne => absurd hbuild.choose_spec (hne _)) hwr
  have hm : main (someLibrary h N cs.length (ok options)) ["boolean".toList] w = ((main (someLibrary h N cs.length (ok options)) ["boolean".toList] w).1, ok 0) := by rw [← hmain]
  obtain ⟨h1, -, h2, h3⟩ := C87_boolean (rest := []) (χ := fun c => if c then fun _ => True else Within block) (orig := both [] block) hE hm rfl ha hb full_is hsb (Crossing.noFour hno) (Crossing.manifold hno full_is.complex.proper)
  have hlast : last options "rest.kigumi".toList = some fun a b => a != b := if_pos rfl
  obtain ⟨c, h4, h5, h6⟩ := h3 "rest.kigumi".toList (fun a b => a != b) hlast f2
  have hfile : (main (someLibrary h N cs.length (ok options)) ["boolean".toList] w).1.files "rest.kigumi".toList = some cs := by
    obtain ⟨o', a', b', bb, v, g1, g2, g3, g4, g5, -⟩ := C53_boolean_files _ [] w _ hm
    obtain rfl : options = o' := by injection g1
    obtain rfl := Cli.reads_unique ha g2
    obtain rfl := Cli.reads_unique hb g3
    have g6 := g5 "rest.kigumi".toList
    rw [hlast] at g6
    obtain ⟨op, r, ps, k1, k2, k3, -, k4⟩ := g6
    obtain ⟨rfl, -⟩ := hev op "rest.kigumi".toList bb v r (k1 ▸ .sym rfl) g4 k2
    have k5 : ps = (someLibrary h N cs.length (ok options)).kigumiPieces (spread inverse) := Cli.prints_unique k3 (.inl ⟨f2, rfl⟩)
    rw [k4, k5, (hE.write (spread inverse)).1 cs hcs]
    exact congrArg some (List.take_of_length_le (le_refl cs.length))
  have hc : c.take cs.length = cs := by
    have := h5.symm.trans hfile
    injection this
  obtain ⟨raw', -, -, hread'⟩ := stored_reads (spread_exact N inverse) rfl hcs
  have hlen : ¬ cs.length < c.length := by
    intro hlt
    obtain ⟨st, e⟩ := hread' h [] []
    rw [List.append_nil] at e
    refine h6 hlt raw' ⟨h, [], st, ?_⟩
    show IO.readRegion h N nullCodec .fresh ⟨⟨c.take cs.length, false, false⟩, []⟩ = _
    rw [hc]
    exact e
  refine ⟨_, hm, h1, (h2 _ (by decide)).trans hw, cs, hfile, ?_⟩
  rw [List.take_of_length_le (by omega)] at hc
  rw [← hc]
  have e1 : Combined (fun a b => a != b) (fun _ => True) (Within block) = fun x => ¬ Within block x := by
    funext x
    refine propext ⟨?_, fun hx => ⟨true, false, by simp, by simpa using hx, rfl⟩⟩
    rintro ⟨a, b, ha, hb, hf⟩ hx
    rw [ha.2 trivial, hb.2 hx] at hf
    cases hf
  have e2 : (fun x => Surface (both [] block true) x ∨ Surface (both [] block false) x) = Surface block := by
    funext x
    refine propext ⟨?_, .inr⟩
    rintro (⟨t, ht, -⟩ | hx)
    · exact absurd ht (by simp [both])
    · exact hx
  rw [← e1, ← e2]
  exact h4

end Complement

end Kigumi.Props
