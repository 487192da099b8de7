import Verif.Spec.Writable
import Verif.Props.Arguments

/-!
# C106: which regions can be written, and when a conversion ends with status 0
-/
namespace Kigumi.IO
open Kigumi Outcome
open Kigumi.Spec.Writable

/-! ## Writing succeeds or throws -/

/-- The outcome is `n` bytes if `P` holds, and an exception otherwise: the one for missing data only if data are missing. -/
def Good (D : Prop) (o : Outcome (List Byte)) (P : Prop) (n : Nat) : Prop :=
  (P → ∃ a, o = ok a ∧ a.length = n) ∧ (¬ P → ∃ m, o = exn m ∧ (m = "checked_cast failed" ∨ (m = "out_of_range" ∧ ¬ D)))

theorem Good.bind {D : Prop} {x : Outcome (List Byte)} {f : List Byte → Outcome (List Byte)} {P Q : Prop} {n k : Nat} (hx : Good D x P n) (hf : ∀ a, a.length = n → Good D (f a) Q k) : Good D (x.bind f) (P ∧ Q) k := by
  by_cases hp : P
  · obtain ⟨a, rfl, ha⟩ := hx.1 hp
    exact ⟨fun h => (hf a ha).1 h.2, fun h => (hf a ha).2 fun hq => h ⟨hp, hq⟩⟩
  · obtain ⟨m, rfl, hm⟩ := hx.2 hp
    exact ⟨fun h => absurd h.1 hp, fun _ => ⟨m, rfl, hm⟩⟩

theorem Good.ret {D : Prop} {a : List Byte} {n : Nat} (ha : a.length = n) : Good D (ok a) True n := ⟨fun _ => ⟨a, rfl, ha⟩, fun h => absurd trivial h⟩

theorem Good.congr {D : Prop} {x : Outcome (List Byte)} {P Q : Prop} {n k : Nat} (hx : Good D x P n) (h : P ↔ Q) (hn : n = k) : Good D x Q k := by rw [← propext h, ← hn]; exact hx

variable {D : Prop}

theorem good_size (h : Host) (n : Nat) : Good D (kigumiWrite h .int32 .size n) (n < 2 ^ 31) 4 := by
  have hf : Fits .int32 (n : Int) ↔ n < 2 ^ 31 := by simp [Fits, IntTy.int32]
  have hne : ¬ IntTy.int32 = IntTy.size := by decide
  unfold kigumiWrite
  rw [if_neg hne]
  constructor
  · intro hn
    rw [(C43_cast .int32 (by decide) n).1 (hf.2 hn)]
    exact ⟨_, rfl, by rw [(C43_host _ _ h).1, encode_length]; rfl⟩
  · intro hn
    rw [(C43_cast .int32 (by decide) n).2 fun h => hn (hf.1 h)]
    exact ⟨_, rfl, .inl rfl⟩

theorem magLoop_length (fuel v : Nat) (hv : v ≤ fuel) (h0 : v ≠ 0) : (magLoop fuel v).length = Nat.log 256 v + 1 := by
  induction fuel generalizing v with
  | zero => omega
  | succ fuel ih =>
    unfold magLoop
    rw [if_neg h0, List.length_cons]
    by_cases hs : v < 256
    · rw [Nat.log_of_lt hs, Nat.div_eq_of_lt hs]
      cases fuel <;> simp [magLoop]
    · rw [ih (v / 256) (by omega) (by omega), Nat.log_of_one_lt_of_le (n := v) (by decide) (by omega)]

theorem exportMag_length (b : Backend) (v : Nat) : (exportMag b v).length = digits b v := by
  unfold exportMag digits
  split
  · cases b <;> rfl
  · next h0 => rw [List.length_reverse, magLoop_length v v (Nat.le_refl v) h0]

theorem good_block (h : Host) (b : Backend) (v : Nat) : Good D (writeBlock h (exportMag b v)) (digits b v < 2 ^ 31) (4 + digits b v) := by
  unfold writeBlock
  rw [exportMag_length]
  refine Good.congr (Good.bind (good_size h _) fun a ha => Good.ret (n := 4 + digits b v) ?_) (by simp) rfl
  rw [List.length_append, ha, exportMag_length]

theorem good_rat (h : Host) (b : Backend) (q : ℚ) : Good D (writeRat h b q) (Short b q) (numberSize b q) := by
  unfold writeRat
  refine Good.congr (Good.bind (good_block h b _) fun n hn => Good.bind (good_block h b _) fun d hd => Good.ret (n := numberSize b q) ?_) (by simp [Short]) rfl
  rw [List.length_append, List.length_append, writeBool_length, hn, hd]; rfl

theorem good_vertex (h : Host) (N : Numbers) (p : Pt) :
    Good D (writeVertex h N p) (Doubles p ∨ (Short N.backend p.x.value ∧ Short N.backend p.y.value ∧ Short N.backend p.z.value)) (vertexSize N.backend p) := by
  unfold writeVertex
  split
  · next x y z hx hy hz =>
    have hd : Doubles p := by simp [Doubles, hx, hy, hz]
    refine Good.congr (Good.ret (n := 25) ?_) (by simp [hd]) (by simp [vertexSize, hd])
    simp [writeBool_length, writeDouble_length]
  · next hn =>
    have hd : ¬ Doubles p := by
      rintro ⟨hx, hy, hz⟩
      obtain ⟨x, hx⟩ := Option.ne_none_iff_exists'.1 hx
      obtain ⟨y, hy⟩ := Option.ne_none_iff_exists'.1 hy
      obtain ⟨z, hz⟩ := Option.ne_none_iff_exists'.1 hz
      exact hn x y z hx hy hz
    refine Good.congr (Good.bind (good_rat h _ _) fun x hx => Good.bind (good_rat h _ _) fun y hy => Good.bind (good_rat h _ _) fun z hz => Good.ret (n := vertexSize N.backend p) ?_) (by simp [hd]) rfl
    rw [List.length_append, List.length_append, List.length_append, writeBool_length, hx, hy, hz]
    simp [vertexSize, hd]

theorem good_vertices (h : Host) (N : Numbers) (ps : List Pt) :
    Good D (writeVertices h N ps) (∀ p ∈ ps, Doubles p ∨ (Short N.backend p.x.value ∧ Short N.backend p.y.value ∧ Short N.backend p.z.value)) (ps.map (vertexSize N.backend)).sum := by
  induction ps with
  | nil => exact Good.congr (Good.ret rfl) (by simp) rfl
  | cons p ps ih =>
    unfold writeVertices
    refine Good.congr (Good.bind (good_vertex h N p) fun a ha => Good.bind ih fun b hb => Good.ret (n := ((p :: ps).map (vertexSize N.backend)).sum) ?_) (by simp) rfl
    rw [List.length_append, ha, hb]; simp

theorem good_face (h : Host) (f : Tri Nat) (d : Unit) : Good D (writeFace h nullCodec f d) (f.a < 2 ^ 31 ∧ f.b < 2 ^ 31 ∧ f.c < 2 ^ 31) 12 := by
  unfold writeFace writeIndex
  refine Good.congr (Good.bind (good_size h _) fun a ha => Good.bind (good_size h _) fun b hb => Good.bind (good_size h _) fun c hc => Good.ret (n := 12) ?_) (by simp) rfl
  simp [ha, hb, hc, nullCodec]

theorem good_faces (h : Host) (data : List Unit) (fs : List (Tri Nat)) (i : Nat) :
    Good (i + fs.length ≤ data.length) (writeFaces h nullCodec data i fs) ((∀ f ∈ fs, f.a < 2 ^ 31 ∧ f.b < 2 ^ 31 ∧ f.c < 2 ^ 31) ∧ fs.length ≤ data.length - i) (12 * fs.length) := by
  induction fs generalizing i with
  | nil => exact Good.congr (Good.ret rfl) (by simp) rfl
  | cons f fs ih =>
    unfold writeFaces
    by_cases hi : i < data.length
    · rw [at!_ok.2 (List.getElem?_eq_getElem hi), okb]
      have := ih (i + 1)
      rw [show (i + 1 + fs.length ≤ data.length) = (i + (f :: fs).length ≤ data.length) by rw [List.length_cons]; congr 1; omega] at this
      refine Good.congr (Good.bind (good_face h f _) fun a ha => Good.bind this fun b hb => Good.ret (n := 12 * (f :: fs).length) ?_) ?_ rfl
      · rw [List.length_append, ha, hb, List.length_cons]; omega
      · have : fs.length ≤ data.length - (i + 1) ↔ (f :: fs).length ≤ data.length - i := by rw [List.length_cons]; omega
        rw [this]
        simp only [List.forall_mem_cons, and_true]
        tauto
    · have e : at! data i = exn "out_of_range" := by unfold at!; rw [List.getElem?_eq_none (by omega)]
      rw [e]
      have h1 : ¬ (f :: fs).length ≤ data.length - i := by rw [List.length_cons]; omega
      have h2 : ¬ i + (f :: fs).length ≤ data.length := by rw [List.length_cons]; omega
      exact ⟨fun k => absurd k.2 h1, fun _ => ⟨_, rfl, .inr ⟨rfl, h2⟩⟩⟩

theorem good_region (h : Host) (N : Numbers) (r : RawRegion Unit) :
    Good (r.boundary.faces.length ≤ r.boundary.data.length) (writeRegion h N nullCodec r) (Writable N.backend r.boundary) (fileSize N.backend r.boundary) := by
  unfold writeRegion writeSoup
  have hfs := good_faces h r.boundary.data r.boundary.faces 0
  rw [Nat.zero_add] at hfs
  refine Good.congr (Good.bind (n := 8 + (r.boundary.points.map (vertexSize N.backend)).sum + 12 * r.boundary.faces.length) (Good.bind (good_size h _) fun nv hnv => Good.bind (good_size h _) fun nf hnf => Good.bind (good_vertices h N _) fun vs hvs =>
    Good.bind hfs fun fs hfs => Good.ret ?_) fun b hb => Good.ret (n := fileSize N.backend r.boundary) ?_) ?_ rfl
  · simp only [List.length_append, hnv, hnf, hvs, hfs]
  · rw [List.length_append, hb, (C43_host _ _ h).1, encode_length]
    show 1 + _ = _
    unfold fileSize; omega
  · constructor
    · rintro ⟨⟨h1, h2, h3, ⟨h4, h5⟩, -⟩, -⟩; exact ⟨h1, h2, h3, h4, h5⟩
    · rintro ⟨h1, h2, h3, h4, h5⟩; exact ⟨⟨h1, h2, h3, ⟨h4, h5⟩, trivial⟩, trivial⟩

end Kigumi.IO

namespace Kigumi.Props
open Kigumi Outcome Kigumi.Program Kigumi.Cli
open Kigumi.IO (Host Numbers Pt RawRegion Byte nullCodec Backend)
open Kigumi.Geo (P3)
open Kigumi.Spec.Cli (HasFormat)
open Kigumi.Spec.Arguments
open Kigumi.Spec.Writable

variable {F : Type} {h : Host} {N : Numbers} {M : Text.Doubles F} {bits : F → Nat} {dbl : Pt → Option (Text.P3 F)} {E : Cli.Env Byte Pt Unit (Builder P3 Unit)}

/-! ## Binary files -/

/-- **Which regions can be written.** A region whose counts, indices and lengths are below `2 ^ 31` is written, and the file has the length that follows from its parts.  For any other region an exception is thrown; it is the one of
`checked_cast` if there are data for every face. -/
theorem C106_written (h : Host) (N : Numbers) (r : RawRegion Unit) :
    (Writable N.backend r.boundary → ∃ bs, IO.writeRegion h N nullCodec r = ok bs ∧ bs.length = fileSize N.backend r.boundary) ∧
    (¬ Writable N.backend r.boundary → ∃ m, IO.writeRegion h N nullCodec r = exn m ∧ (r.boundary.faces.length ≤ r.boundary.data.length → m = "checked_cast failed")) := by
  obtain ⟨h1, h2⟩ := IO.good_region h N r
  refine ⟨h1, fun hw => ?_⟩
  obtain ⟨m, e, hm⟩ := h2 hw
  exact ⟨m, e, fun hd => hm.elim id fun k => absurd hd k.2⟩

theorem digits_le {b : Backend} {v k : Nat} {ds : List (Fin 256)} (hv : v ≤ k) (hk : BinSpec.big ds = k) (hl : ds.length < 2 ^ 31) : digits b v < 2 ^ 31 := by
  unfold digits
  split
  · cases b <;> decide
  · next h0 =>
    have h1 : k < 256 ^ ds.length := by
      have := IO.leVal_lt ds.reverse
      rw [IO.leVal_big, hk, List.length_reverse] at this
      exact this
    have : Nat.log 256 v < ds.length := Nat.log_lt_of_lt_pow h0 (Nat.lt_of_le_of_lt hv h1)
    omega

theorem rational_short {b : Backend} {bs : List (Fin 256)} {q : ℚ} (hq : BinSpec.IsRational bs q) : Short b q := by
  obtain ⟨s, ns, ds, n, d, -, ⟨c1, e1, -, ⟨-, -, l1⟩, b1⟩, ⟨c2, e2, -, ⟨-, -, l2⟩, b2⟩, hd, rfl⟩ := hq
  have key : (((n : ℚ) / (d : ℚ)).num.natAbs ≤ n) ∧ ((n : ℚ) / (d : ℚ)).den ≤ d := by
    have e : (n : ℚ) / (d : ℚ) = Rat.divInt (n : ℤ) (d : ℤ) := by rw [Rat.divInt_eq_div]; simp
    rw [e]
    constructor
    · rcases Nat.eq_zero_or_pos n with rfl | hn
      · simp
      · have := Rat.num_dvd (n : ℤ) (b := (d : ℤ)) (by exact_mod_cast hd)
        have := Int.natAbs_dvd_natAbs.2 this
        exact Nat.le_of_dvd hn (by simpa using this)
    · have := Rat.den_dvd (n : ℤ) (d : ℤ)
      exact Nat.le_of_dvd (Nat.pos_of_ne_zero hd) (by exact_mod_cast this)
  have : ∀ q : ℚ, q = (n : ℚ) / (d : ℚ) ∨ q = -((n : ℚ) / (d : ℚ)) → Short b q := by
    rintro q (rfl | rfl)
    · exact ⟨digits_le key.1 b1 l1, digits_le key.2 b2 l2⟩
    · refine ⟨digits_le ?_ b1 l1, digits_le ?_ b2 l2⟩
      · rw [Rat.num_neg_eq_neg_num, Int.natAbs_neg]; exact key.1
      · rw [Rat.den_neg_eq_den]; exact key.2
  split
  · exact this _ (.inl rfl)
  · exact this _ (.inr rfl)

theorem row_mem {α : Type} {R : BinSpec.Bytes → α → Prop} {bs : BinSpec.Bytes} {l : List α} (hr : BinSpec.Row R bs l) : ∀ a ∈ l, ∃ xs, R xs a := by
  induction hr with
  | nil => intro a ha; cases ha
  | cons h1 _ ih =>
    intro a ha
    rcases List.mem_cons.1 ha with rfl | ha
    · exact ⟨_, h1⟩
    · exact ih a ha

/-- **What has been read can be written:** every region in a binary file can be written to a binary file, although numerators and denominators of the file need not be in lowest terms. -/
theorem C106_kept {n : Name} (hn : HasFormat n .kigumi) {readable : Name → Bool} {files : Name → Option (List Byte)} {a : Region Pt Unit} (ha : StandsFor N M bits readable files n a) : Writable N.backend a.boundary := by
  cases ha with
  | empty hn' => exact absurd hn' (Cli.format_not_empty hn).1
  | full hn' => exact absurd hn' (Cli.format_not_empty hn).2
  | text hf _ _ ht =>
    rw [Cli.format_unique hf hn] at ht
    exact ht.elim
  | binary _ _ _ _ hr =>
    obtain ⟨k, nv, nf, ps, fs, faces, -, -, ⟨-, -, h1⟩, ⟨-, -, h2⟩, h3, h4, h5, h6⟩ := hr
    refine ⟨h1, ?_, fun p hp => ?_, fun f hf => ?_, ?_⟩
    · show List.length (RawRegion.boundary _).faces < _
      rw [h5, List.length_map]; exact h2
    · obtain ⟨xs, ⟨_, _, _, x, y, z, -, -, -, -, rfl⟩ | ⟨_, _, _, _, x, y, z, -, -, hx, hy, hz, rfl⟩⟩ := row_mem h3 p hp
      · left; simp [Doubles]
      · right; exact ⟨rational_short hx, rational_short hy, rational_short hz⟩
    · replace hf : f ∈ (RawRegion.boundary _).faces := hf
      rw [h5] at hf
      obtain ⟨g, hg, rfl⟩ := List.mem_map.1 hf
      obtain ⟨xs, _, _, _, _, -, ⟨-, -, k1⟩, ⟨-, -, k2⟩, ⟨-, -, k3⟩, -⟩ := row_mem h4 g hg
      exact ⟨k1, k2, k3⟩
    · show List.length (RawRegion.boundary _).faces ≤ List.length (RawRegion.boundary _).data
      rw [h5, h6]; simp

/-- **What text files give can be written** exactly if there are fewer than `2 ^ 31` points and triangles, and all indices are below `2 ^ 31`. -/
theorem C106_text {n : Name} {fmt : Format} (hn : HasFormat n fmt) (hk : fmt ≠ .kigumi) {readable : Name → Bool} {files : Name → Option (List Byte)} {a : Region Pt Unit} (ha : StandsFor N M bits readable files n a) :
    Writable N.backend a.boundary ↔ a.boundary.points.length < 2 ^ 31 ∧ a.boundary.faces.length < 2 ^ 31 ∧ ∀ f ∈ a.boundary.faces, f.a < 2 ^ 31 ∧ f.b < 2 ^ 31 ∧ f.c < 2 ^ 31 := by
  constructor
  · rintro ⟨h1, h2, -, h3, -⟩; exact ⟨h1, h2, h3⟩
  · rintro ⟨h1, h2, h3⟩
    cases ha with
    | empty hn' => exact absurd hn' (Cli.format_not_empty hn).1
    | full hn' => exact absurd hn' (Cli.format_not_empty hn).2
    | binary hf => exact absurd (Cli.format_unique hn hf) hk
    | text =>
      refine ⟨h1, h2, fun p hp => .inl ?_, h3, by simp⟩
      obtain ⟨q, -, rfl⟩ := List.mem_map.1 hp
      simp [Doubles, fromDoubles]

/-- Coordinates from text files are finite when they are rounded again. -/
theorem C106_finite (hT : TextLibrary N M bits dbl E) {n : Name} {fmt : Format} (hn : HasFormat n fmt) (hk : fmt ≠ .kigumi) {readable : Name → Bool} {files : Name → Option (List Byte)} {a : Region Pt Unit} (ha : StandsFor N M bits readable files n a) :
    ∀ p ∈ a.boundary.points, ∃ d, dbl p = some d := by
  cases ha with
  | empty hn' => exact absurd hn' (Cli.format_not_empty hn).1
  | full hn' => exact absurd hn' (Cli.format_not_empty hn).2
  | binary hf => exact absurd (Cli.format_unique hn hf) hk
  | text =>
    intro p hp
    obtain ⟨q, -, rfl⟩ := List.mem_map.1 hp
    exact hT.finite _ ⟨_, rfl⟩ ⟨_, rfl⟩ ⟨_, rfl⟩

/-! ## The stream -/

theorem stream_room {X : Type} (room : Nat) (flush : Nat → Nat → Bool) (ps : List (List X)) (hr : ps.flatten.length ≤ room) : (stream room flush ps).bad = false := by
  induction ps using List.reverseRecOn with
  | nil => rfl
  | append_singleton l p ih =>
    have hl : l.flatten.length ≤ room := by simp at hr ⊢; omega
    have e : stream room flush (l ++ [p]) = (stream room flush l).put room flush p := by simp [stream]
    have hi := (Cli.stream_inv room flush l).1 (ih hl)
    rw [e]
    unfold OS.put
    rw [ih hl]
    simp only [Bool.false_eq_true, if_false]
    split
    · simp only [decide_eq_false_iff_not, Nat.not_lt]
      rw [← List.append_assoc, hi]
      simpa using hr
    · rfl

/-! ## The program -/

/-- The name is that of a file that can be created, and its extension belongs to a format that can hold the region. -/
def Takes (E : Cli.Env Byte Pt Unit (Builder P3 Unit)) (b : Backend) (n : Name) (a : Region Pt Unit) : Prop :=
  E.creatable n = true ∧ ((HasFormat n .kigumi ∧ Writable b a.boundary) ∨ ∃ fmt, fmt ≠ .kigumi ∧ HasFormat n fmt)

/-- The device has room for the output. -/
def Roomy (E : Cli.Env Byte Pt Unit (Builder P3 Unit)) (b : Backend) (n : Name) (a : Region Pt Unit) : Prop :=
  (HasFormat n .kigumi → fileSize b a.boundary ≤ E.room n) ∧ ∀ fmt, fmt ≠ .kigumi → HasFormat n fmt → (E.soupPieces fmt a.boundary).1.flatten.length ≤ E.room n

/-- **Which outputs can be written**, if the device has room for them and all coordinates are finite when they are rounded. -/
theorem C106_output (hE : Library h N E) (hT : TextLibrary N M bits dbl E) {n : Name} {a : Region Pt Unit} (hfin : ∀ p ∈ a.boundary.points, ∃ d, dbl p = some d) (hroom : Roomy E N.backend n a) :
    Cli.Writes E n a ↔ Takes E N.backend n a := by
  obtain ⟨w1, w2⟩ := C106_written h N (rawOf a)
  constructor
  · rintro ⟨hc, ps, ⟨hk, rfl⟩ | ⟨fmt, hk, hf, rfl⟩, hok, -⟩
    · refine ⟨hc, .inl ⟨hk, ?_⟩⟩
      by_contra hw
      obtain ⟨m, e, -⟩ := w2 hw
      have := (hE.write a).2
      rw [e, hok] at this
      cases this
    · exact ⟨hc, .inr ⟨fmt, hk, hf⟩⟩
  · rintro ⟨hc, ⟨hk, hw⟩ | ⟨fmt, hk, hf⟩⟩
    · obtain ⟨bs, e, hl⟩ := w1 hw
      obtain ⟨p1, p2⟩ := hE.write a
      refine ⟨hc, _, .inl ⟨hk, rfl⟩, by rw [p2, e]; rfl, stream_room _ _ _ ?_⟩
      rw [p1 bs e, hl]; exact hroom.1 hk
    · have hd : ∀ p : Pt, ∃ d : Text.P3 F, p ∈ a.boundary.points → dbl p = some d := fun p => by
        by_cases hp : p ∈ a.boundary.points
        · obtain ⟨d, hd⟩ := hfin p hp
          exact ⟨d, fun _ => hd⟩
        · exact ⟨(M.zero, M.zero, M.zero), fun h => absurd h hp⟩
      choose d hd using hd
      exact ⟨hc, _, .inr ⟨fmt, hk, hf, rfl⟩, (hT.write fmt a.boundary d hk hd).2, stream_room _ _ _ (hroom.2 fmt hk hf)⟩

/-- **When conversions end with status 0.** -/
theorem C106_convert (hE : Library h N E) (hR : TextReaders N M bits E) (hT : TextLibrary N M bits dbl E) (rest : List Name) (w : World Byte)
    (hfin : ∀ i o a, E.parseInOut rest = ok (i, o) → StandsFor N M bits E.readable w.files i a → (∀ p ∈ a.boundary.points, ∃ d, dbl p = some d) ∧ Roomy E N.backend o a) :
    (main E ("convert".toList :: rest) w).2 = ok 0 ↔ ∃ i o a, E.parseInOut rest = ok (i, o) ∧ StandsFor N M bits E.readable w.files i a ∧ Takes E N.backend o a := by
  rw [(C104_status hE hR rest w).1]
  constructor
  · rintro ⟨i, o, a, h1, h2, h3⟩
    exact ⟨i, o, a, h1, h2, (C106_output hE hT (hfin i o a h1 h2).1 (hfin i o a h1 h2).2).1 h3⟩
  · rintro ⟨i, o, a, h1, h2, h3⟩
    exact ⟨i, o, a, h1, h2, (C106_output hE hT (hfin i o a h1 h2).1 (hfin i o a h1 h2).2).2 h3⟩

/-- **A region that is too large destroys the output file:** the conversion ends with status 1 and this message, and what the output file held before is lost.  Other files are not touched. -/
theorem C106_too_large (hE : Library h N E) (hR : TextReaders N M bits E) (rest : List Name) (w : World Byte) {i o : Name} {a : Region Pt Unit} (hp : E.parseInOut rest = ok (i, o)) (ha : StandsFor N M bits E.readable w.files i a)
    (hc : E.creatable o = true) (ho : HasFormat o .kigumi) (hd : a.boundary.faces.length ≤ a.boundary.data.length) (hw : ¬ Writable N.backend a.boundary) :
    ∃ w', main E ("convert".toList :: rest) w = (w', ok 1) ∧ w'.err = w.err ++ "error: checked_cast failed\n".toList ∧ w'.out = w.out ∧ (∃ c, w'.files o = some c ∧ c.length ≤ E.room o) ∧ ∀ g, g ≠ o → w'.files g = w.files g := by
  obtain ⟨m, e, hm⟩ := (C106_written h N (rawOf a)).2 hw
  rw [hm hd] at e
  have hps : (E.kigumiPieces a).2 = exn "checked_cast failed" := by rw [(hE.write a).2, e]; rfl
  let w1 : World Byte := { w with files := fun g => if g = o then some (((E.kigumiPieces a).1.foldl (OS.put (E.room o) E.flush) ⟨[], [], false⟩).close (E.room o)) else w.files g }
  have h1 : readOrThrow E i w = (w, ok a) := readOrThrow_ok.2 ⟨rfl, (C104_operand hE hR _ _ _).2 ha⟩
  have h2 : writeOrThrow E o a w = (w1, exn "checked_cast failed") := by
    unfold writeOrThrow Act.bind Cli.writeRegion
    rw [if_pos (show endsWith o ".kigumi".toList = true from endsWith_iff.2 ho)]
    unfold writeFile
    rw [if_pos hc]
    dsimp only
    rw [hps]
    rfl
  have h3 : convertCommand E rest w = (w1, exn "checked_cast failed") := by
    unfold convertCommand
    rw [hp]
    show ((readOrThrow E i).bind fun r => writeOrThrow E o r) w = _
    unfold Act.bind
    rw [h1]
    exact h2
  refine ⟨_, C53_exception_reported E rest w w1 _ (convertCommand E) "convert".toList (by unfold Cli.commands; simp) h3, ?_, rfl, ⟨_, if_pos rfl, ?_⟩, fun g hg => if_neg hg⟩
  · show w.err ++ _ = _
    rfl
  · rw [show (E.kigumiPieces a).1.foldl (OS.put (E.room o) E.flush) ⟨[], [], false⟩ = stream (E.room o) E.flush (E.kigumiPieces a).1 from rfl, stream_close, List.length_take]
    exact Nat.min_le_left _ _

namespace Text106
open Text95 Text104

/-- A point with a coordinate that is no double, one with doubles only, a triangle: the file has 80 bytes. -/
def third : RawRegion Unit := ⟨2, ⟨[⟨⟨1 / 3, none⟩, ⟨-300, some 5⟩, ⟨0, some 0⟩⟩, ⟨⟨1, some 1⟩, ⟨2, some 2⟩, ⟨3, some 3⟩⟩], [⟨0, 1, 1⟩], [()]⟩⟩

example (h : Host) : ∃ bs, IO.writeRegion h ⟨.gmp, fun n => n, fun _ => none⟩ nullCodec third = ok bs ∧ bs.length = 9 + (1 + 11 + 12 + 10) + 25 + 12 := by
  have e : fileSize .gmp third.boundary = 9 + (1 + 11 + 12 + 10) + 25 + 12 := by decide +kernel
  rw [← e]
  refine (C106_written h ⟨.gmp, fun n => n, fun _ => none⟩ third).1 ⟨by decide, by decide, fun p hp => ?_, by decide, by decide⟩
  rcases List.mem_cons.1 hp with rfl | hp
  · exact .inr ⟨⟨by decide +kernel, by decide +kernel⟩, ⟨by decide +kernel, by decide +kernel⟩, ⟨by decide +kernel, by decide +kernel⟩⟩
  · rw [List.mem_singleton.1 hp]; exact .inl (by decide)

/-- A file with an index that does not exist; no reader looks at it. -/
def farFile : List Char := "OFF\n3 1 0\n0 0 0\n1 0 0\n0 1 0\n3 0 1 2147483648\n".toList

def farRegion : Region Pt Unit := ⟨.boundaryDefined, ⟨[(0, 0, 0), (1, 0, 0), (0, 1, 0)].map (fromDoubles wholeNumbers fun n => n), [⟨0, 1, 2147483648⟩], [()]⟩⟩

theorem far_stands (readable : Name → Bool) (hr : readable "far.off".toList = true) (files : Name → Option (List Byte)) (hf : files "far.off".toList = some (bytes farFile)) :
    StandsFor wholeNumbers Text.natDoubles (fun n => n) readable files "far.off".toList farRegion := by
  rcases taken_or Text.natDoubles (fmt := .off) (by decide) (chars (bytes farFile)) with ⟨ps, fs, k, h1, h3⟩ | ⟨-, s, k, h3⟩
  · have e : (readText Text.natDoubles .off (chars (bytes farFile))).2.1.faces = [⟨0, 1, 2147483648⟩] := by decide +kernel
    have e' : (readText Text.natDoubles .off (chars (bytes farFile))).2.1.points = [(0, 0, 0), (1, 0, 0), (0, 1, 0)] := by decide +kernel
    rw [h3] at e e'
    dsimp only at e e'
    have hlong : ∃ f ∈ fs, 3 ≤ f.length := by
      by_contra hno
      have : fs.flatMap Text.fan = [] := List.flatMap_eq_nil_iff.2 fun f hf => by
        have : ¬ 3 ≤ f.length := fun h => hno ⟨f, hf, h⟩
        match f with
        | [] => rfl
        | [_] => rfl
        | [_, _] => rfl
        | _ :: _ :: _ :: _ => simp at this
      rw [this] at e
      cases e
    have := StandsFor.text (N := wholeNumbers) (bits := fun n => n) (fmt := .off) ⟨"far".toList, by decide⟩ hr hf h1 hlong
    rw [e, e'] at this
    exact this
  · have e : (readText Text.natDoubles .off (chars (bytes farFile))).1 = true := by decide +kernel
    rw [h3] at e
    cases e

/-- It cannot be converted to a binary file, and the attempt destroys the file that had this name. -/
example (h : Host) (w : World Byte) (hf : w.files "far.off".toList = some (bytes farFile)) (old : List Byte) (_ : w.files "b.kigumi".toList = some old) :
    ∃ w', main (converter h "far.off".toList "b.kigumi".toList) ["convert".toList] w = (w', ok 1) ∧ w'.err = w.err ++ "error: checked_cast failed\n".toList ∧ w'.files "far.off".toList = w.files "far.off".toList := by
  obtain ⟨hE, hR⟩ := converter_is h "far.off".toList "b.kigumi".toList
  obtain ⟨w', e1, e2, -, -, e3⟩ := C106_too_large hE hR [] w rfl (far_stands _ rfl w.files hf) rfl ⟨"b".toList, by decide⟩ (by decide) fun hw => by
    have := (hw.indices ⟨0, 1, 2147483648⟩ (by simp [farRegion])).2.2
    revert this
    decide
  exact ⟨w', e1, e2, e3 _ (by decide)⟩

theorem converter_text (h : Host) (i o : Name) : TextLibrary wholeNumbers Text.natDoubles (fun n => n) toNaturals (converter h i o) :=
  have t := (environment_is h 1000 []).2
  ⟨t.read, t.write, t.rounds, t.finite⟩

/-- To a text file it is converted. -/
example (h : Host) (w : World Byte) (hf : w.files "far.off".toList = some (bytes farFile)) : (main (converter h "far.off".toList "b.obj".toList) ["convert".toList] w).2 = ok 0 := by
  obtain ⟨hE, hR⟩ := converter_is h "far.off".toList "b.obj".toList
  have hT := converter_text h "far.off".toList "b.obj".toList
  have hs := far_stands (converter h "far.off".toList "b.obj".toList).readable rfl w.files hf
  refine (C106_convert hE hR hT [] w ?_).2 ⟨_, _, _, rfl, hs, rfl, .inr ⟨.obj, by decide, "b".toList, by decide⟩⟩
  rintro i o a e ha
  cases e
  refine ⟨C106_finite hT (fmt := .off) ⟨"far".toList, by decide⟩ (by decide) ha, ?_⟩
  obtain rfl := C104_unique _ _ _ _ _ ha hs
  have f1 : HasFormat "b.obj".toList .obj := ⟨"b".toList, by decide⟩
  refine ⟨fun k => absurd (Cli.format_unique f1 k) (by decide), fun fmt _ k => ?_⟩
  obtain rfl := Cli.format_unique f1 k
  show [bytes (writeText Text.natDoubles (fun p => (toNaturals p).getD (0, 0, 0)) .obj farRegion.boundary)].flatten.length ≤ 1000
  decide +kernel

/-- The file of the full region has 9 bytes. -/
example (h : Host) (w : World Byte) : (main (converter h ":full:".toList "b.kigumi".toList) ["convert".toList] w).2 = ok 0 := by
  obtain ⟨hE, hR⟩ := converter_is h ":full:".toList "b.kigumi".toList
  have f1 : HasFormat "b.kigumi".toList .kigumi := ⟨"b".toList, by decide⟩
  have hs : StandsFor wholeNumbers Text.natDoubles (fun n => n) (converter h ":full:".toList "b.kigumi".toList).readable w.files ":full:".toList ⟨.full, ⟨[], [], []⟩⟩ := .full rfl
  refine (C106_convert hE hR (converter_text h _ _) [] w ?_).2 ⟨_, _, _, rfl, hs, rfl, .inl ⟨f1, by decide, by decide, by simp, by simp, by decide⟩⟩
  rintro i o a e ha
  cases e
  obtain rfl := C104_unique _ _ _ _ _ ha hs
  refine ⟨by simp, fun _ => ?_, fun fmt hk k => absurd (Cli.format_unique k f1) hk⟩
  show 9 ≤ 1000
  decide

end Text106

end Kigumi.Props
