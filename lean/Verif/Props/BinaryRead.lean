import Verif.Proofs.BinaryExact
import Verif.Spec.Files

/-!
# C103: exactly which binary files of regions are read, and as what
-/
namespace Kigumi.IO
open Kigumi Outcome BinSpec

variable {D : Type}

/-! ## Statements -/

/-- **Files that are read.**  If the bytes begin with a region (see `Spec/BinaryRead.lean`), reading returns true, the kind is the stored one, the vertices, faces and face data are
appended to those of the target, and exactly the bytes of the region are consumed, whatever follows, on every host and whatever the buffer of the reader holds. -/
theorem C103_taken (h : Host) (N : Numbers) (C : Codec D) (E : Bytes → D → Prop) (hC : Exact C.dec E) (t : RawRegion D) (hl : t.boundary.data.length = t.boundary.faces.length)
    (bs : Bytes) (r : RawRegion D) (hr : IsRegion N E bs r) (rest buf : Bytes) :
    ∃ buf', readRegion h N C t (mk (bs ++ rest) buf) =
      ok (true, ⟨r.kind, ⟨t.boundary.points ++ r.boundary.points, t.boundary.faces ++ r.boundary.faces, t.boundary.data ++ r.boundary.data⟩⟩, mk rest buf') :=
  readRegion_reads ((exact_region h N hC hl).reads bs (onto t r) ⟨r, hr, rfl⟩) rest buf

/-- **Files that are not.**  If reading returns true, the bytes begin with a region, and the target and the stream are as above: a file that does not begin with a region is rejected
or ends in an exception or a signal. -/
theorem C103_only (h : Host) (N : Numbers) (C : Codec D) (E : Bytes → D → Prop) (hC : Exact C.dec E) (t : RawRegion D) (hl : t.boundary.data.length = t.boundary.faces.length)
    (bs buf : Bytes) (t' : RawRegion D) (st' : St) (e : readRegion h N C t (mk bs buf) = ok (true, t', st')) :
    ∃ xs rest r buf', bs = xs ++ rest ∧ IsRegion N E xs r ∧
      t' = ⟨r.kind, ⟨t.boundary.points ++ r.boundary.points, t.boundary.faces ++ r.boundary.faces, t.boundary.data ++ r.boundary.data⟩⟩ ∧ st' = mk rest buf' := by
  unfold readRegion at e
  rw [if_neg (by simp [mk])] at e
  obtain ⟨⟨r', st1⟩, e1, e2⟩ := bind_ok e
  have e3 : (st1.s.good, r', st1) = (true, t', st') := Outcome.ok.inj e2
  injection e3 with h1 h2
  injection h2 with h2 h3
  subst h2 h3
  rcases (exact_region h N hC hl).only bs buf r' st1 e1 with k | ⟨xs, rest, buf', rfl, ⟨r, k, rfl⟩, rfl⟩
  · rw [ended_not_good k] at h1; cases h1
  · exact ⟨xs, rest, r, buf', rfl, k, rfl, rfl⟩

/-- **There is one way to read a file**: of the beginnings of a file, at most one is a region, and it is one region only. -/
theorem C103_unique (N : Numbers) (C : Codec D) (E : Bytes → D → Prop) (hC : Exact C.dec E) (xs ys rest rest' : Bytes) (r r' : RawRegion D) (e : xs ++ rest = ys ++ rest')
    (h1 : IsRegion N E xs r) (h2 : IsRegion N E ys r') : xs = ys ∧ r = r' := by
  obtain ⟨k1, k2⟩ := (exact_region .little N hC (t := .fresh) rfl).unique e ⟨r, h1, rfl⟩ ⟨r', h2, rfl⟩
  refine ⟨k1, ?_⟩
  have : ∀ x : RawRegion D, onto .fresh x = x := fun x => rfl
  rwa [this, this] at k2

/-- **What is written** is such a file: of the same kind, with the same faces, data and values of coordinates. -/
theorem C103_written (h : Host) (N : Numbers) (C : Codec D) (V : D → Prop) (hV : C.Lawful V) (E : Bytes → D → Prop) (hC : Exact C.dec E) (r : RawRegion D) (hr : Storable N V r)
    (bs : Bytes) (e : writeRegion h N C r = ok bs) : ∃ r', IsRegion N E bs r' ∧ SameRegion r r' := by
  obtain ⟨r', buf', e', k⟩ := C41_blank_target_partial h h N C V hV r hr bs e 0 [] []
  obtain ⟨xs, rest, r1, buf1, e1, h1, e2, e3⟩ := C103_only h N C E hC ⟨0, Soup.empty⟩ rfl (bs ++ []) [] r' (mk [] buf') e'
  have : rest = [] := by
    have := congrArg (fun st : St => st.s.rest) e3
    exact this.symm
  subst this
  rw [List.append_nil, List.append_nil] at e1
  subst e1
  exact ⟨r1, h1, by rw [e2] at k; exact k⟩

/-- **The face data that come with the library**: none, or an integer. -/
theorem C103_face_data : Exact nullCodec.dec IsNothing ∧ ∀ (h : Host) (t : IntTy), 0 < t.bytes → Exact (intCodec h t).dec (IsInteger t.signed t.bytes) :=
  ⟨exact_null, exact_int⟩

/-- **The files that the programs take** (`Spec/Files.lean`, used in C71, C72, C95 and others) are these. -/
theorem C103_files (N : Numbers) (c : Bytes) :
    (∀ raw, Spec.Files.Accepted N c raw ↔ ∃ xs rest, c = xs ++ rest ∧ IsRegion N IsNothing xs raw) ∧
      (Spec.Files.Readable N c ↔ ∃ xs rest raw, c = xs ++ rest ∧ IsRegion N IsNothing xs raw) := by
  have take : ∀ raw, (∃ xs rest, c = xs ++ rest ∧ IsRegion N IsNothing xs raw) → ∀ (h : Host) (buf : Bytes), ∃ st, readRegion h N nullCodec .fresh (mk c buf) = ok (true, raw, st) := by
    rintro raw ⟨xs, rest, rfl, k⟩ h buf
    obtain ⟨buf', e⟩ := C103_taken h N nullCodec IsNothing exact_null .fresh rfl xs raw k rest buf
    exact ⟨_, e⟩
  have only : ∀ raw h buf st, readRegion h N nullCodec .fresh (mk c buf) = ok (true, raw, st) → ∃ xs rest, c = xs ++ rest ∧ IsRegion N IsNothing xs raw := by
    intro raw h buf st e
    obtain ⟨xs, rest, r, buf', e1, k, rfl, -⟩ := C103_only h N nullCodec IsNothing exact_null .fresh rfl c buf raw st e
    exact ⟨xs, rest, e1, k⟩
  refine ⟨fun raw => ⟨?_, ?_⟩, ?_, ?_⟩
  · rintro ⟨h, buf, st, e⟩; exact only raw h buf st e
  · intro k
    obtain ⟨st, e⟩ := take raw k .little []
    exact ⟨.little, [], st, e⟩
  · intro k
    obtain ⟨raw, st, e⟩ := k .little []
    obtain ⟨xs, rest, h1, h2⟩ := only raw .little [] st e
    exact ⟨xs, rest, raw, h1, h2⟩
  · rintro ⟨xs, rest, raw, h1, h2⟩ h buf
    obtain ⟨st, e⟩ := take raw ⟨xs, rest, h1, h2⟩ h buf
    exact ⟨raw, st, e⟩

/-! ## Examples -/

/-- A full region that nobody wrote: one vertex, exact, whose flag is 7 and whose first coordinate is minus four sixths, with a leading zero and with the sign 200; a face that is no
triangle of it; and two bytes that are not read. -/
def oddBytes : Bytes := [1, 1, 0, 0, 0, 1, 0, 0, 0, 7, 200, 2, 0, 0, 0, 0, 4, 1, 0, 0, 0, 6, 0, 0, 0, 0, 0, 1, 0, 0, 0, 1, 0, 1, 0, 0, 0, 3, 1, 0, 0, 0, 1, 0, 0, 0, 0, 9, 0, 0, 0, 0, 1, 0, 0]

example (b : Backend) : IsRegion (BinaryExample.N b) IsNothing oddBytes ⟨1, ⟨[⟨⟨-2/3, none⟩, ⟨0, none⟩, ⟨3, none⟩⟩], [⟨0, 9, 256⟩], [()]⟩⟩ := by
  refine ⟨1, [1, 0, 0, 0], [1, 0, 0, 0], oddBytes.extract 9 43, oddBytes.extract 43 55, [(⟨0, 9, 256⟩, ())], by decide, rfl, by unfold IsCount; decide, by unfold IsCount; decide, ?_, ?_, rfl, rfl⟩
  · have : oddBytes.extract 9 43 = oddBytes.extract 9 43 ++ [] := by decide
    rw [this]
    refine .cons (.inr ⟨7, oddBytes.extract 10 22, oddBytes.extract 22 32, oddBytes.extract 32 43, -2/3, 0, 3, by decide, by decide, ?_, ?_, ?_, rfl⟩) .nil
    · exact ⟨200, [2, 0, 0, 0, 0, 4], [1, 0, 0, 0, 6], 4, 6, by decide, ⟨[2, 0, 0, 0], [0, 4], rfl, by unfold IsCount; decide, rfl⟩, ⟨[1, 0, 0, 0], [6], rfl, by unfold IsCount; decide, rfl⟩, by decide, by rw [if_neg (by decide)]; norm_num⟩
    · exact ⟨0, [0, 0, 0, 0], [1, 0, 0, 0, 1], 0, 1, by decide, ⟨[0, 0, 0, 0], [], rfl, by unfold IsCount; decide, rfl⟩, ⟨[1, 0, 0, 0], [1], rfl, by unfold IsCount; decide, rfl⟩, by decide, by rw [if_pos rfl]; norm_num⟩
    · exact ⟨0, [1, 0, 0, 0, 3], [1, 0, 0, 0, 1], 3, 1, by decide, ⟨[1, 0, 0, 0], [3], rfl, by unfold IsCount; decide, rfl⟩, ⟨[1, 0, 0, 0], [1], rfl, by unfold IsCount; decide, rfl⟩, by decide, by rw [if_pos rfl]; norm_num⟩
  · have : oddBytes.extract 43 55 = oddBytes.extract 43 55 ++ [] := by decide
    rw [this]
    exact .cons ⟨[0, 0, 0, 0], [9, 0, 0, 0], [0, 1, 0, 0], [], by decide, by unfold IsCount; decide, by unfold IsCount; decide, by unfold IsCount; decide, rfl⟩ .nil

/-- Read by the model, too. -/
example : (readRegion .big (BinaryExample.N .gmp) nullCodec .fresh (mk (oddBytes ++ [5, 5]) [1, 2, 3])).bind (fun x => ok (x.1, x.2.1, x.2.2.s.rest)) =
    ok (true, ⟨1, ⟨[⟨⟨mkRat (-2) 3, none⟩, ⟨0, none⟩, ⟨3, none⟩⟩], [⟨0, 9, 256⟩], [()]⟩⟩, [5, 5]) := by decide +kernel

/-- A negative number of vertices is no count. -/
example (n : Nat) : ¬ IsCount [255, 255, 255, 255] n := by rintro ⟨-, rfl, h⟩; revert h; decide

/-- An integer as face data. -/
example : IsInteger true 2 [254, 255] (-2) := ⟨rfl, by decide, by decide, by decide⟩

end Kigumi.IO
