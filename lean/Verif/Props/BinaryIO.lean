import Verif.Proofs.BinarySoup
import Mathlib.Data.List.Forall2

/-!
# Binary region files (C39–C42)

`mk bs buf` is a good stream with the bytes `bs`, with `buf` in the buffer that the reader keeps between calls.
-/
namespace Kigumi.IO
open Kigumi Outcome

variable {D : Type}

/-! ## Statements -/

/-- The regions have the same kind, coordinates, faces and face data. -/
def SameRegion (r r' : RawRegion D) : Prop :=
  r.kind = r'.kind ∧ r.boundary.faces = r'.boundary.faces ∧ r.boundary.data = r'.boundary.data ∧
  List.Forall₂ (fun p q : Pt => p.x.value = q.x.value ∧ p.y.value = q.y.value ∧ p.z.value = q.z.value) r.boundary.points r'.boundary.points

/-- Fewer than 2^31 magnitude bytes. -/
def ShortNat (n : Nat) : Prop := ∃ k < 2 ^ 31, n < 256 ^ k
def ShortRat (q : ℚ) : Prop := ShortNat q.num.natAbs ∧ ShortNat q.den

/-- A region that the format can hold; `V` restricts the face data. -/
structure Storable (N : Numbers) (V : D → Prop) (r : RawRegion D) : Prop where
  kind : r.kind < 256
  vertices : r.boundary.points.length < 2 ^ 31
  faces : r.boundary.faces.length < 2 ^ 31
  coordinates : ∀ p ∈ r.boundary.points, Consistent N p ∧ ShortRat p.x.value ∧ ShortRat p.y.value ∧ ShortRat p.z.value
  indices : ∀ f ∈ r.boundary.faces, f.a < 2 ^ 31 ∧ f.b < 2 ^ 31 ∧ f.c < 2 ^ 31
  data : r.boundary.data.length = r.boundary.faces.length
  data_ok : ∀ d ∈ r.boundary.data, V d

/-! ## Face data -/

theorem nullCodec_lawful : nullCodec.Lawful (fun _ => True) := ⟨fun d _ => reads_ret d, safe_ret (), fun _ _ => cutOk_nil _ _⟩

theorem intCodec_lawful (h h' : Host) (t : IntTy) (ht : 0 < t.bytes) : (⟨(intCodec h t).enc, (intCodec h' t).dec, 0⟩ : Codec Int).Lawful (Fits t) := by
  refine ⟨fun d hd => ?_, safe_rInt h' ht ht, fun d _ => ?_⟩
  · show Reads (rInt h' t t) (writeInt h t d) d
    rw [(C43_host t d h).1]; exact reads_rInt h' ht ht hd hd
  · show CutOk (rInt h' t t) (writeInt h t d) _
    rw [(C43_host t d h).1]; exact cutOk_same h' t d _

/-! ## The whole file -/

theorem writeRegion_ok {h : Host} {N : Numbers} {C : Codec D} {r : RawRegion D} {bs : List Byte} (e : writeRegion h N C r = ok bs) :
    ∃ nv nf vs fs, kigumiWrite h .int32 .size r.boundary.points.length = ok nv ∧ kigumiWrite h .int32 .size r.boundary.faces.length = ok nf ∧ writeVertices h N r.boundary.points = ok vs ∧
      writeFaces h C r.boundary.data 0 r.boundary.faces = ok fs ∧ bs = encode .uint8 r.kind ++ (nv ++ (nf ++ (vs ++ fs))) := by
  obtain ⟨b, hb, e⟩ := bind_ok (show (writeSoup h N C r.boundary).bind _ = ok bs from e)
  obtain ⟨nv, h1, hb⟩ := bind_ok (show (kigumiWrite h .int32 .size r.boundary.points.length).bind _ = ok b from hb)
  obtain ⟨nf, h2, hb⟩ := bind_ok hb
  obtain ⟨vs, h3, hb⟩ := bind_ok hb
  obtain ⟨fs, h4, hb⟩ := bind_ok hb
  refine ⟨nv, nf, vs, fs, h1, h2, h3, h4, ?_⟩
  rw [← Outcome.ok.inj e, ← Outcome.ok.inj hb, (C43_host _ _ h).1]; simp only [List.append_assoc]

theorem fits_byte {k : Nat} (hk : k < 256) : Fits .uint8 (k : Int) := by simp [Fits, IntTy.uint8]; omega

/-- The target after reading a region: the stored vertices and faces are appended. -/
def appended (N : Numbers) (t r : RawRegion D) : RawRegion D := ⟨r.kind, ⟨t.boundary.points ++ r.boundary.points.map (back N), t.boundary.faces ++ r.boundary.faces, t.boundary.data ++ r.boundary.data⟩⟩

theorem reads_region {h h' : Host} {N : Numbers} {C : Codec D} {V : D → Prop} (hC : C.Lawful V) {r : RawRegion D} (hk : r.kind < 256) (hc : ∀ p ∈ r.boundary.points, Consistent N p)
    (hd : r.boundary.data.length = r.boundary.faces.length) (hV : ∀ d ∈ r.boundary.data, V d) {bs : List Byte} (e : writeRegion h N C r = ok bs) {t : RawRegion D}
    (hl : t.boundary.data.length = t.boundary.faces.length) : Reads (rRegion h' N C t) bs (appended N t r) := by
  obtain ⟨nv, nf, vs, fs, h1, h2, h3, h4, rfl⟩ := writeRegion_ok e
  refine Reads.bind (reads_rInt h' (by decide) (by decide) (fits_byte hk) (fits_byte hk)) ?_
  refine Reads.map (g := fun t => (⟨(r.kind : Int).toNat, t⟩ : RawRegion D)) (a := (appended N t r).boundary) ?_
  refine Reads.bind (reads_size h1) (Reads.bind (f := fun nf => (rVertices h' N r.boundary.points.length t.boundary).bind fun t => rFaces h' C nf t) (reads_size h2) (Reads.bind (f := fun t => rFaces h' C r.boundary.faces.length t) (reads_vertices hc h3 t.boundary) ?_))
  have := reads_faces (h' := h') hC hV (i := 0) (by omega) h4 (t := ⟨t.boundary.points ++ r.boundary.points.map (back N), t.boundary.faces, t.boundary.data⟩) hl
  rw [List.drop_zero] at this
  exact this

theorem back_same (N : Numbers) (ps : List Pt) : List.Forall₂ (fun p q : Pt => p.x.value = q.x.value ∧ p.y.value = q.y.value ∧ p.z.value = q.z.value) ps (ps.map (back N)) := by
  induction ps with
  | nil => exact .nil
  | cons p ps ih => exact .cons (by unfold back; split <;> exact ⟨rfl, rfl, rfl⟩) ih

theorem appended_fresh (N : Numbers) (r : RawRegion D) : SameRegion r (appended N .fresh r) :=
  ⟨rfl, rfl, rfl, back_same N _⟩

theorem readRegion_reads {h : Host} {N : Numbers} {C : Codec D} {t r' : RawRegion D} {bs : List Byte} (hr : Reads (rRegion h N C t) bs r') (rest buf : List Byte) :
    ∃ buf', readRegion h N C t (mk (bs ++ rest) buf) = ok (true, r', mk rest buf') := by
  obtain ⟨buf', e⟩ := hr rest buf
  refine ⟨buf', ?_⟩
  unfold readRegion
  rw [if_neg (by simp [mk]), e]
  rfl

/-! ## Sizes -/

theorem okb {α β : Type} (a : α) (f : α → Outcome β) : (ok a).bind f = f a := rfl

theorem write_nat (h : Host) {n : Nat} (hn : n < 2 ^ 31) : ∃ bs, kigumiWrite h .int32 .size n = ok bs := by
  obtain ⟨bs, e, -⟩ := (C43_write_read h h .int32 .size .size (by decide) (by decide) n (by simp [Fits, IntTy.size]; omega)).2 (by simp [Fits, IntTy.int32]; omega)
  exact ⟨bs, e⟩

theorem magLoop_short (fuel v k : Nat) (hv : v < 256 ^ k) : (magLoop fuel v).length ≤ k := by
  induction fuel generalizing v k with
  | zero => simp [magLoop]
  | succ fuel ih =>
    unfold magLoop
    split
    · simp
    · next h0 =>
      cases k with
      | zero => simp at hv; omega
      | succ k =>
        have := ih (v / 256) k (by rw [Nat.div_lt_iff_lt_mul (by decide)]; rw [Nat.pow_succ] at hv; exact hv)
        simpa using this

theorem exportMag_short {b : Backend} {v : Nat} (hv : ShortNat v) : (exportMag b v).length < 2 ^ 31 := by
  obtain ⟨k, hk, hv⟩ := hv
  unfold exportMag
  split
  · cases b <;> simp
  · rw [List.length_reverse]; exact Nat.lt_of_le_of_lt (magLoop_short v v k hv) hk

theorem writeBlock_short (h : Host) {bs : List Byte} (hb : bs.length < 2 ^ 31) : ∃ cs, writeBlock h bs = ok cs := by
  obtain ⟨c, e⟩ := write_nat h hb
  exact ⟨c ++ bs, by unfold writeBlock; rw [e]; rfl⟩

theorem writeRat_short (h : Host) (b : Backend) {q : ℚ} (hq : ShortRat q) : ∃ cs, writeRat h b q = ok cs := by
  obtain ⟨n, e1⟩ := writeBlock_short h (exportMag_short (b := b) hq.1)
  obtain ⟨d, e2⟩ := writeBlock_short h (exportMag_short (b := b) hq.2)
  exact ⟨_, by unfold writeRat; rw [e1, okb, e2, okb]⟩

theorem writeVertex_short (h : Host) (N : Numbers) {p : Pt} (hp : ShortRat p.x.value ∧ ShortRat p.y.value ∧ ShortRat p.z.value) : ∃ cs, writeVertex h N p = ok cs := by
  obtain ⟨x, e1⟩ := writeRat_short h N.backend hp.1
  obtain ⟨y, e2⟩ := writeRat_short h N.backend hp.2.1
  obtain ⟨z, e3⟩ := writeRat_short h N.backend hp.2.2
  unfold writeVertex
  split
  · exact ⟨_, rfl⟩
  · exact ⟨_, by rw [e1, okb, e2, okb, e3, okb]⟩

theorem writeVertices_short (h : Host) (N : Numbers) {ps : List Pt} (hp : ∀ p ∈ ps, ShortRat p.x.value ∧ ShortRat p.y.value ∧ ShortRat p.z.value) : ∃ cs, writeVertices h N ps = ok cs := by
  induction ps with
  | nil => exact ⟨[], rfl⟩
  | cons p ps ih =>
    obtain ⟨a, e1⟩ := writeVertex_short h N (hp p (by simp))
    obtain ⟨b, e2⟩ := ih fun q hq => hp q (by simp [hq])
    exact ⟨a ++ b, by unfold writeVertices; rw [e1, okb, e2, okb]⟩

theorem writeFaces_short (h : Host) (C : Codec D) (data : List D) {fs : List (Tri Nat)} (hf : ∀ f ∈ fs, f.a < 2 ^ 31 ∧ f.b < 2 ^ 31 ∧ f.c < 2 ^ 31) (i : Nat) (hi : i + fs.length ≤ data.length) :
    ∃ cs, writeFaces h C data i fs = ok cs := by
  induction fs generalizing i with
  | nil => exact ⟨[], rfl⟩
  | cons f fs ih =>
    simp only [List.length_cons] at hi
    obtain ⟨ha, hb, hc⟩ := hf f (by simp)
    obtain ⟨a, e1⟩ := write_nat h ha
    obtain ⟨b, e2⟩ := write_nat h hb
    obtain ⟨c, e3⟩ := write_nat h hc
    obtain ⟨r, e4⟩ := ih (fun g hg => hf g (by simp [hg])) (i + 1) (by omega)
    have e0 : at! data i = ok (data[i]'(by omega)) := at!_ok.2 (List.getElem?_eq_getElem _)
    exact ⟨_, by unfold writeFaces writeFace writeIndex; rw [e0, okb, e1, okb, e2, okb, e3, okb, okb, e4, okb]⟩

theorem writeRegion_storable (h : Host) {N : Numbers} (C : Codec D) {V : D → Prop} {r : RawRegion D} (hr : Storable N V r) : ∃ bs, writeRegion h N C r = ok bs := by
  obtain ⟨a, e1⟩ := write_nat h hr.vertices
  obtain ⟨b, e2⟩ := write_nat h hr.faces
  obtain ⟨c, e3⟩ := writeVertices_short h N fun p hp => (hr.coordinates p hp).2
  obtain ⟨d, e4⟩ := writeFaces_short h C r.boundary.data hr.indices 0 (by rw [hr.data]; omega)
  exact ⟨_, by unfold writeRegion writeSoup; rw [e1, okb, e2, okb, e3, okb, e4, okb, okb]⟩

/-! ## C39 -/

/-- **Binary files round-trip.**  Every region that the format can hold is written without an error on any host, and reading the bytes on any host, whatever follows
them and whatever the reader's buffer held, succeeds, gives the same region, and consumes exactly the bytes written. -/
theorem C39_round_trip (h h' : Host) (N : Numbers) (C : Codec D) (V : D → Prop) (hC : C.Lawful V) (r : RawRegion D) (hr : Storable N V r) :
    ∃ bs, writeRegion h N C r = ok bs ∧ ∀ rest buf, ∃ r' buf', readRegion h' N C .fresh (mk (bs ++ rest) buf) = ok (true, r', mk rest buf') ∧ SameRegion r r' := by
  obtain ⟨bs, e⟩ := writeRegion_storable h C hr
  refine ⟨bs, e, fun rest buf => ?_⟩
  obtain ⟨buf', e'⟩ := readRegion_reads (reads_region (h' := h') hC hr.kind (fun p hp => (hr.coordinates p hp).1) hr.data hr.data_ok e (t := .fresh) rfl) rest buf
  exact ⟨_, buf', e', appended_fresh N r⟩

/-- The bytes do not depend on the host. -/
theorem kigumiWrite_host (h h' : Host) (u t : IntTy) (v : Int) : kigumiWrite h u t v = kigumiWrite h' u t v := by
  unfold kigumiWrite
  simp only [(C43_host _ _ h).1, (C43_host _ _ h').1]

theorem writeVertex_host (h h' : Host) (N : Numbers) (p : Pt) : writeVertex h N p = writeVertex h' N p := by
  have hb : ∀ b, writeBool h b = writeBool h' b := fun b => by rw [writeBool_eq, writeBool_eq]
  have hd : ∀ b, writeDouble h b = writeDouble h' b := fun b => by unfold writeDouble; rw [(C43_host _ _ h).1, (C43_host _ _ h').1]
  have hr : ∀ b q, writeRat h b q = writeRat h' b q := fun b q => by unfold writeRat writeBlock; simp only [kigumiWrite_host h h', hb]
  unfold writeVertex
  simp only [hb, hd, hr]

theorem writeVertices_host (h h' : Host) (N : Numbers) (ps : List Pt) : writeVertices h N ps = writeVertices h' N ps := by
  induction ps with
  | nil => rfl
  | cons p ps ih => unfold writeVertices; rw [writeVertex_host h h', ih]

theorem writeFaces_host (h h' : Host) (C : Codec D) (data : List D) (i : Nat) (fs : List (Tri Nat)) : writeFaces h C data i fs = writeFaces h' C data i fs := by
  induction fs generalizing i with
  | nil => rfl
  | cons f fs ih =>
    unfold writeFaces writeFace writeIndex
    simp only [kigumiWrite_host h h', ih]

/-- **Files are portable**: the bytes of a region (with face data whose encoding is) do not depend on the byte order of the host. -/
theorem C39_portable (h h' : Host) (N : Numbers) (C : Codec D) (r : RawRegion D) : writeRegion h N C r = writeRegion h' N C r := by
  unfold writeRegion writeSoup
  rw [kigumiWrite_host h h', kigumiWrite_host h h' _ _ r.boundary.faces.length, writeVertices_host h h', writeFaces_host h h', (C43_host _ _ h).1, (C43_host _ _ h').1]

/-! ## C40 -/

theorem sticky_soup (h : Host) (N : Numbers) (C : Codec D) (hd : Sticky C.dec) (t : Soup Pt D) : Sticky (rSoup h N C t) :=
  (safe_size h).sticky.bind fun _ => (safe_size h).sticky.bind fun _ => (safe_vertices h N _ _).sticky.bind fun _ => sticky_rest h C hd _ _

theorem safe_soup (h : Host) (N : Numbers) {C : Codec D} {V : D → Prop} (hC : C.Lawful V) {t : Soup Pt D} (hl : t.data.length = t.faces.length) : Safe (rSoup h N C t) :=
  (safe_size h).bind fun _ => (safe_size h).bind fun _ => Safe.bind' (Y := fun t : Soup Pt D => t.data.length = t.faces.length) (safe_vertices h N _ _)
    (fun _ _ _ e => by obtain ⟨h1, h2, -⟩ := vertices_inv e; rw [h1, h2, hl]) fun _ ht => safe_faces h hC _ ht

theorem cutNo_region {h h' : Host} {N : Numbers} {C : Codec D} {V : D → Prop} (hC : C.Lawful V) {r : RawRegion D} (hk : r.kind < 256) (hc : ∀ p ∈ r.boundary.points, Consistent N p)
    (hd : r.boundary.data.length = r.boundary.faces.length) (hV : ∀ d ∈ r.boundary.data, V d) {bs : List Byte} (e : writeRegion h N C r = ok bs) {t : RawRegion D}
    (hl : t.boundary.data.length = t.boundary.faces.length) : CutNo (rRegion h' N C t) bs := by
  obtain ⟨nv, nf, vs, fs, h1, h2, h3, h4, rfl⟩ := writeRegion_ok e
  have hst := hC.safe.sticky
  refine CutNo.bind (reads_rInt h' (by decide) (by decide) (fits_byte hk) (fits_byte hk)) (cutNo_rInt h' _ _ _) ?_ fun k => (sticky_soup h' N C hst _).bind fun _ => (safe_ret _).sticky
  have hrd : Reads (rSoup h' N C t.boundary) (nv ++ (nf ++ (vs ++ fs))) (appended N t r).boundary := by
    refine Reads.bind (reads_size h1) (Reads.bind (f := fun nf => (rVertices h' N r.boundary.points.length t.boundary).bind fun t => rFaces h' C nf t) (reads_size h2) (Reads.bind (f := fun t => rFaces h' C r.boundary.faces.length t) (reads_vertices hc h3 t.boundary) ?_))
    have := reads_faces (h' := h') hC hV (i := 0) (by omega) h4 (t := ⟨t.boundary.points ++ r.boundary.points.map (back N), t.boundary.faces, t.boundary.data⟩) hl
    rw [List.drop_zero] at this
    exact this
  refine CutNo.map hrd ?_
  refine CutNo.bind (reads_size h1) (cutNo_size h1) (CutNo.bind (f := fun nf => (rVertices h' N r.boundary.points.length t.boundary).bind fun t => rFaces h' C nf t) (reads_size h2) (cutNo_size h2)
    (CutNo.bind (f := fun t => rFaces h' C r.boundary.faces.length t) (reads_vertices hc h3 t.boundary) (cutNo_vertices hc h3 _) (cutOk_faces (t := ⟨t.boundary.points ++ r.boundary.points.map (back N), t.boundary.faces, t.boundary.data⟩) hC hV h4 hl).no fun _ => sticky_rest h' C hst _ _)
    fun _ => (safe_vertices h' N _ _).sticky.bind fun _ => sticky_rest h' C hst _ _) fun _ => (safe_size h').sticky.bind fun _ => (safe_vertices h' N _ _).sticky.bind fun _ => sticky_rest h' C hst _ _

/-- A cut that is not within a vertex stored with rational coordinates: within the first nine bytes (kind and counts), in the faces, between vertices, or within a vertex
stored with doubles. -/
def SafeCut (h : Host) (N : Numbers) (r : RawRegion D) (n : Nat) : Prop := n < 9 ∨ safeVs h N r.boundary.points (n - 9)

theorem cutOk_region {h h' : Host} {N : Numbers} {C : Codec D} {V : D → Prop} (hC : C.Lawful V) {r : RawRegion D} (hk : r.kind < 256) (hc : ∀ p ∈ r.boundary.points, Consistent N p)
    (hd : r.boundary.data.length = r.boundary.faces.length) (hV : ∀ d ∈ r.boundary.data, V d) {bs : List Byte} (e : writeRegion h N C r = ok bs) {t : RawRegion D}
    (hl : t.boundary.data.length = t.boundary.faces.length) : CutOk (rRegion h' N C t) bs (SafeCut h N r) := by
  obtain ⟨nv, nf, vs, fs, h1, h2, h3, h4, rfl⟩ := writeRegion_ok e
  have l1 : nv.length = 4 := by rw [(write_size h1).1, encode_length]; rfl
  have l2 : nf.length = 4 := by rw [(write_size h2).1, encode_length]; rfl
  have lk : (encode .uint8 (r.kind : Int)).length = 1 := encode_length _ _
  have hrd : Reads (rSoup h' N C t.boundary) (nv ++ (nf ++ (vs ++ fs))) (appended N t r).boundary := by
    refine Reads.bind (reads_size h1) (Reads.bind (f := fun nf => (rVertices h' N r.boundary.points.length t.boundary).bind fun t => rFaces h' C nf t) (reads_size h2) (Reads.bind (f := fun t => rFaces h' C r.boundary.faces.length t) (reads_vertices hc h3 t.boundary) ?_))
    have := reads_faces (h' := h') hC hV (i := 0) (by omega) h4 (t := ⟨t.boundary.points ++ r.boundary.points.map (back N), t.boundary.faces, t.boundary.data⟩) hl
    rw [List.drop_zero] at this
    exact this
  have hvy : ∀ n st (a : Soup Pt D) st', rVertices h' N n t.boundary st = ok (a, st') → a.data.length = a.faces.length := by
    intro n st a st' e; obtain ⟨h1, h2, -⟩ := vertices_inv e; rw [h1, h2, hl]
  have sv : ∀ n m, Safe ((rVertices h' N n t.boundary).bind fun t => rFaces h' C m t) := fun n m =>
    Safe.bind' (Y := fun t : Soup Pt D => t.data.length = t.faces.length) (safe_vertices h' N _ _) (hvy n) fun _ ht => safe_faces h' hC _ ht
  have c := CutOk.bind (f := fun k : Int => (rSoup h' N C t.boundary).bind fun t => Rd.ret (⟨k.toNat, t⟩ : RawRegion D)) (P := fun _ => True)
    (reads_rInt h' (u := .uint8) (t := .uint8) (by decide) (by decide) (fits_byte hk) (fits_byte hk)) (cutOk_same h' _ _ _)
    (CutOk.map (g := fun t => (⟨(r.kind : Int).toNat, t⟩ : RawRegion D)) hrd
      (CutOk.bind (P := fun _ => True) (reads_size h1) (cutOk_rSize h1 _) (CutOk.bind (P := fun _ => True) (f := fun nf => (rVertices h' N r.boundary.points.length t.boundary).bind fun t => rFaces h' C nf t) (reads_size h2) (cutOk_rSize h2 _)
        (CutOk.bind' (f := fun t => rFaces h' C r.boundary.faces.length t) (Y := fun t : Soup Pt D => t.data.length = t.faces.length) (reads_vertices hc h3 t.boundary) (cutOk_vertices hc h3 _)
          (cutOk_faces hC hV h4 hl) (hvy _) fun _ ht => safe_faces h' hC _ ht)
        fun _ => sv _ _) fun _ => (safe_size h').bind fun _ => sv _ _))
    (fun k => (safe_soup h' N hC hl).bind fun _ => safe_ret _)
  refine CutOk.mono c ?_
  intro n _ hn
  unfold splitAt
  split
  · trivial
  · split
    · trivial
    · split
      · trivial
      · split
        · rcases hn with hn | hn
          · omega
          · have : n - (encode IntTy.uint8 (r.kind : Int)).length - nv.length - nf.length = n - 9 := by omega
            rw [this]; exact hn
        · trivial

/-- The claim: every proper prefix is rejected by returning false. -/
def TruncationClaim (b : Backend) : Prop := ∀ (h h' : Host) (N : Numbers), N.backend = b → ∀ (r : RawRegion Unit) (bs : List Byte), Storable N (fun _ => True) r → writeRegion h N nullCodec r = ok bs →
  ∀ n < bs.length, ∀ buf, ∃ r' st', readRegion h' N nullCodec .fresh (mk (bs.take n) buf) = ok (false, r', st')

/-- **A truncated file is never accepted**: reading a proper prefix of a file does not return true, for any truncation point, target and content of the buffer. -/
theorem C40_never_accepted (h h' : Host) (N : Numbers) (C : Codec D) (V : D → Prop) (hC : C.Lawful V) (r : RawRegion D) (hr : Storable N V r) (bs : List Byte) (e : writeRegion h N C r = ok bs)
    (t : RawRegion D) (hl : t.boundary.data.length = t.boundary.faces.length) (n : Nat) (hn : n < bs.length) (buf : List Byte) (r' : RawRegion D) (st' : St) :
    readRegion h' N C t (mk (bs.take n) buf) ≠ ok (true, r', st') := by
  intro he
  unfold readRegion at he
  rw [if_neg (by simp [mk])] at he
  obtain ⟨x, hx, he⟩ := bind_ok he
  have := cutNo_region (h' := h') hC hr.kind (fun p hp => (hr.coordinates p hp).1) hr.data hr.data_ok e hl n hn buf x.1 x.2 hx
  have hg := ended_not_good this
  injection he with he
  injection he with he _
  rw [hg] at he; cases he

/-- **Truncated files are rejected unless they end within a rational coordinate**: at every other truncation point the reader returns false. -/
theorem C40_rejected_partial (h h' : Host) (N : Numbers) (C : Codec D) (V : D → Prop) (hC : C.Lawful V) (r : RawRegion D) (hr : Storable N V r) (bs : List Byte) (e : writeRegion h N C r = ok bs)
    (t : RawRegion D) (hl : t.boundary.data.length = t.boundary.faces.length) (n : Nat) (hn : n < bs.length) (hs : SafeCut h N r n) (buf : List Byte) :
    ∃ r' st', readRegion h' N C t (mk (bs.take n) buf) = ok (false, r', st') := by
  obtain ⟨r', st', e', he⟩ := cutOk_region (h' := h') hC hr.kind (fun p hp => (hr.coordinates p hp).1) hr.data hr.data_ok e hl n hn hs buf
  refine ⟨r', st', ?_⟩
  unfold readRegion
  rw [if_neg (by simp [mk]), e', okb]
  dsimp only
  rw [ended_not_good he]

theorem safeVs_doubles (h : Host) (N : Numbers) {ps : List Pt} (hp : ∀ p ∈ ps, isDbl p = true) (n : Nat) (hw : ∃ bs, writeVertices h N ps = ok bs) : safeVs h N ps n := by
  induction ps generalizing n with
  | nil => trivial
  | cons p ps ih =>
    obtain ⟨bs, e⟩ := hw
    obtain ⟨a, b, ha, hb, rfl⟩ := writeVertices_cons e
    unfold safeVs
    rw [ha]
    dsimp only
    unfold splitAt
    split
    · exact Or.inl (hp p (by simp))
    · exact ih (fun q hq => hp q (by simp [hq])) _ ⟨b, hb⟩

/-- **For regions whose coordinates are all doubles**, every proper prefix is rejected by returning false. -/
theorem C40_doubles_partial (h h' : Host) (N : Numbers) (C : Codec D) (V : D → Prop) (hC : C.Lawful V) (r : RawRegion D) (hr : Storable N V r) (hd : ∀ p ∈ r.boundary.points, isDbl p = true)
    (bs : List Byte) (e : writeRegion h N C r = ok bs) (t : RawRegion D) (hl : t.boundary.data.length = t.boundary.faces.length) (n : Nat) (hn : n < bs.length) (buf : List Byte) :
    ∃ r' st', readRegion h' N C t (mk (bs.take n) buf) = ok (false, r', st') := by
  obtain ⟨nv, nf, vs, fs, h1, h2, h3, h4, rfl⟩ := writeRegion_ok e
  exact C40_rejected_partial h h' N C V hC r hr _ e t hl n hn (Or.inr (safeVs_doubles h N hd _ ⟨vs, h3⟩)) buf

/-! ## C41 and C42 -/

/-- The claim: a successful read makes the target equal to the stored region, and a failed one leaves it. -/
def ReplaceClaim (N : Numbers) : Prop := ∀ (h h' : Host) (t : RawRegion Unit), t.boundary.data.length = t.boundary.faces.length →
  (∀ (r : RawRegion Unit) (bs : List Byte), Storable N (fun _ => True) r → writeRegion h N nullCodec r = ok bs → ∀ buf, ∃ r' st', readRegion h' N nullCodec t (mk bs buf) = ok (true, r', st') ∧ SameRegion r r') ∧
  (∀ (bs buf : List Byte) (r' : RawRegion Unit) (st' : St), readRegion h' N nullCodec t (mk bs buf) = ok (false, r', st') → r' = t)

/-- **What reading does to the target**: the kind is replaced, and the stored vertices, faces and data are appended to those of the target. -/
theorem C41_appends (h h' : Host) (N : Numbers) (C : Codec D) (V : D → Prop) (hC : C.Lawful V) (r : RawRegion D) (hr : Storable N V r) (bs : List Byte) (e : writeRegion h N C r = ok bs)
    (t : RawRegion D) (hl : t.boundary.data.length = t.boundary.faces.length) (rest buf : List Byte) :
    ∃ ps buf', readRegion h' N C t (mk (bs ++ rest) buf) = ok (true, ⟨r.kind, ⟨t.boundary.points ++ ps, t.boundary.faces ++ r.boundary.faces, t.boundary.data ++ r.boundary.data⟩⟩, mk rest buf') ∧
      List.Forall₂ (fun p q : Pt => p.x.value = q.x.value ∧ p.y.value = q.y.value ∧ p.z.value = q.z.value) r.boundary.points ps := by
  obtain ⟨buf', e'⟩ := readRegion_reads (reads_region (h' := h') hC hr.kind (fun p hp => (hr.coordinates p hp).1) hr.data hr.data_ok e hl) rest buf
  exact ⟨_, buf', e', back_same N _⟩

/-- **Reading replaces a target without vertices and faces**, whatever its kind. -/
theorem C41_blank_target_partial (h h' : Host) (N : Numbers) (C : Codec D) (V : D → Prop) (hC : C.Lawful V) (r : RawRegion D) (hr : Storable N V r) (bs : List Byte) (e : writeRegion h N C r = ok bs)
    (k : Nat) (rest buf : List Byte) : ∃ r' buf', readRegion h' N C ⟨k, Soup.empty⟩ (mk (bs ++ rest) buf) = ok (true, r', mk rest buf') ∧ SameRegion r r' := by
  obtain ⟨buf', e'⟩ := readRegion_reads (reads_region (h' := h') hC hr.kind (fun p hp => (hr.coordinates p hp).1) hr.data hr.data_ok e (t := ⟨k, Soup.empty⟩) rfl) rest buf
  exact ⟨_, buf', e', rfl, rfl, rfl, back_same N _⟩

/-- The region invariant: empty or full without faces, or defined by a boundary with at least one face; all indices in range. -/
def ValidRegion (r : RawRegion D) : Prop :=
  ((r.kind = 0 ∨ r.kind = 1) ∧ r.boundary.faces = [] ∨ r.kind = 2 ∧ r.boundary.faces ≠ []) ∧ ∀ f ∈ r.boundary.faces, ∀ v ∈ f.toList, v < r.boundary.points.length

/-- The claim: every region read is valid. -/
def ValidReadClaim (N : Numbers) : Prop := ∀ (h : Host) (bs buf : List Byte) (r' : RawRegion Unit) (st' : St), readRegion h N nullCodec .fresh (mk bs buf) = ok (true, r', st') → ValidRegion r'

/-- **A valid region that was written is read as a valid region.** -/
theorem C42_written_partial (h h' : Host) (N : Numbers) (C : Codec D) (V : D → Prop) (hC : C.Lawful V) (r : RawRegion D) (hr : Storable N V r) (hv : ValidRegion r) (bs : List Byte)
    (e : writeRegion h N C r = ok bs) (rest buf : List Byte) (r' : RawRegion D) (b : Bool) (st' : St) (e' : readRegion h' N C .fresh (mk (bs ++ rest) buf) = ok (b, r', st')) : ValidRegion r' := by
  obtain ⟨buf', e2⟩ := readRegion_reads (reads_region (h' := h') hC hr.kind (fun p hp => (hr.coordinates p hp).1) hr.data hr.data_ok e (t := .fresh) rfl) rest buf
  rw [e2] at e'
  injection e' with e'
  injection e' with _ e'
  injection e' with e' _
  subst e'
  obtain ⟨hv1, hv2⟩ := hv
  refine ⟨hv1, ?_⟩
  intro f hf v hm
  have := hv2 f hf v hm
  show v < ([] ++ r.boundary.points.map (back N)).length
  simpa using this

/-- **What holds of every region that is read**, from any bytes: the kind is a byte, every face has data, and the vertex numbers are below 2^31; nothing more is checked. -/
theorem C42_any_bytes_partial (h : Host) (N : Numbers) (C : Codec D) (st : St) (b : Bool) (r' : RawRegion D) (st' : St) (e : readRegion h N C .fresh st = ok (b, r', st')) :
    r'.kind < 256 ∧ r'.boundary.data.length = r'.boundary.faces.length ∧ ∀ f ∈ r'.boundary.faces, ∀ v ∈ f.toList, v < 2 ^ 31 := by
  unfold readRegion at e
  split at e
  · injection e with e; injection e with _ e; injection e with e _; subst e
    refine ⟨Nat.zero_lt_succ 255, rfl, ?_⟩
    intro f hf; cases hf
  · obtain ⟨x, hx, e⟩ := bind_ok e
    injection e with e; injection e with _ e; injection e with e _; subst e
    obtain ⟨k, st1, hk, hx⟩ := bind_inv (show ((rInt h .uint8 .uint8).bind fun k => (rSoup h N C RawRegion.fresh.boundary).bind fun t => Rd.ret (⟨k.toNat, t⟩ : RawRegion D)) st = ok (x.1, x.2) from hx)
    obtain ⟨t, st2, ht, hx⟩ := bind_inv hx
    injection hx with hx; injection hx with hx _
    rw [← hx]
    obtain ⟨nv, st3, -, ht⟩ := bind_inv (show ((rSize h).bind _) _ = _ from ht)
    obtain ⟨nf, st4, -, ht⟩ := bind_inv ht
    obtain ⟨t1, st5, hv, ht⟩ := bind_inv ht
    obtain ⟨a1, a2, -⟩ := vertices_inv hv
    obtain ⟨-, b2, -, b4⟩ := faces_inv (by rw [a1, a2]; rfl) (by rw [a1]; intro f hf; cases hf) ht
    refine ⟨?_, b2, b4⟩
    obtain ⟨y, hy, hk⟩ := bind_ok (show (kigumiRead h .uint8 .uint8 0 st.s).bind _ = _ from hk)
    injection hk with hk; injection hk with hk _
    unfold kigumiRead at hy
    rw [if_pos rfl] at hy
    injection hy with hy
    have hf : Fits .uint8 y.2 := by
      rw [← hy, readInt_zero]
      split
      · exact wrap_fits (by decide) _
      · exact wrap_fits (by decide) 0
    have hky : k = y.2 := hk.symm
    rw [← hky] at hf
    simp only [Fits, IntTy.uint8, Bool.false_eq_true, if_false] at hf
    show k.toNat < 256
    norm_num at hf; omega

/-! ## Witnesses -/

namespace BinaryExample

/-- Doubles stand for small integers here. -/
def N (b : Backend) : Numbers := ⟨b, fun n => n, fun _ => none⟩

def third : ℚ := mkRat 1 3
def int (n : Nat) : Num := ⟨n, some n⟩

/-- One vertex, with an exact coordinate. -/
def exactRegion : RawRegion Unit := ⟨2, ⟨[⟨⟨third, none⟩, int 0, int 0⟩], [], []⟩⟩

/-- A triangle. -/
def triangle : RawRegion Unit := ⟨2, ⟨[⟨int 0, int 0, int 0⟩, ⟨int 1, int 0, int 0⟩, ⟨int 0, int 1, int 0⟩], [⟨0, 1, 2⟩], [()]⟩⟩

theorem short_small {n : Nat} (h : n < 256) : ShortNat n := ⟨1, by decide, by omega⟩

theorem consistent_int (b : Backend) {x y z : Nat} (hx : x < 256) (hy : y < 256) (hz : z < 256) : Consistent (N b) ⟨int x, int y, int z⟩ := by
  intro c hc v hv
  rcases hc with rfl | rfl | rfl <;> cases hv <;> exact ⟨by omega, rfl⟩

theorem short_int {x : Nat} (hx : x < 256) : ShortRat (int x).value := ⟨short_small (by simpa [int] using hx), short_small (by simp [int])⟩

theorem triangle_storable (b : Backend) : Storable (N b) (fun _ => True) triangle := by
  refine ⟨by decide, by decide, by decide, ?_, ?_, rfl, fun _ _ => trivial⟩
  · intro p hp
    simp only [triangle, List.mem_cons, List.not_mem_nil, or_false] at hp
    rcases hp with rfl | rfl | rfl <;> exact ⟨consistent_int b (by decide) (by decide) (by decide), short_int (by decide), short_int (by decide), short_int (by decide)⟩
  · intro f hf
    simp only [triangle, List.mem_cons, List.not_mem_nil, or_false] at hf
    subst hf; decide

theorem exact_storable (b : Backend) : Storable (N b) (fun _ => True) exactRegion := by
  refine ⟨by decide, by decide, by decide, ?_, ?_, rfl, fun _ _ => trivial⟩
  · intro p hp
    simp only [exactRegion, List.mem_cons, List.not_mem_nil, or_false] at hp
    subst hp
    refine ⟨?_, ⟨short_small (by decide +kernel), short_small (by decide +kernel)⟩, short_int (by decide), short_int (by decide)⟩
    intro c hc v hv
    rcases hc with rfl | rfl | rfl
    · cases hv
    · cases hv; exact ⟨by omega, rfl⟩
    · cases hv; exact ⟨by omega, rfl⟩
  · intro f hf; cases hf

/-- The file of the region with an exact coordinate. -/
def exactBytes : List Byte := [2, 1, 0, 0, 0, 0, 0, 0, 0, 1, 0, 1, 0, 0, 0, 1, 1, 0, 0, 0, 3, 0, 1, 0, 0, 0, 0, 1, 0, 0, 0, 1, 0, 1, 0, 0, 0, 0, 1, 0, 0, 0, 1]
def exactBytesGmp : List Byte := [2, 1, 0, 0, 0, 0, 0, 0, 0, 1, 0, 1, 0, 0, 0, 1, 1, 0, 0, 0, 3, 0, 0, 0, 0, 0, 1, 0, 0, 0, 1, 0, 0, 0, 0, 0, 1, 0, 0, 0, 1]

theorem exact_written : writeRegion .little (N .boost) nullCodec exactRegion = ok exactBytes := by decide +kernel
theorem exact_written_gmp : writeRegion .little (N .gmp) nullCodec exactRegion = ok exactBytesGmp := by decide +kernel

theorem cut_boost : readRegion .little (N .boost) nullCodec .fresh (mk (exactBytes.take 12) []) = exn "division by zero" := by decide +kernel
theorem cut_gmp : readRegion .little (N .gmp) nullCodec .fresh (mk (exactBytesGmp.take 12) []) = ub "division by zero" := by decide +kernel

example : writeRegion .big (N .boost) nullCodec triangle = ok ([2, 3, 0, 0, 0, 1, 0, 0, 0,
    0] ++ List.replicate 24 0 ++ [0, 1] ++ List.replicate 23 0 ++ [0] ++ List.replicate 8 0 ++ [1] ++ List.replicate 15 0 ++ [0, 0, 0, 0, 1, 0, 0, 0, 2, 0, 0, 0]) := by decide +kernel
example : (readRegion .little (N .boost) nullCodec .fresh (mk (exactBytes ++ [9]) [])).bind (fun x => ok (x.1, x.2.1, x.2.2.s.rest)) =
    ok (true, ⟨2, ⟨[⟨⟨third, none⟩, ⟨0, none⟩, ⟨0, none⟩⟩], [], []⟩⟩, [9]) := by decide +kernel

end BinaryExample

open BinaryExample

/-- **The claim about truncated files is false** with Boost rationals and with GMP rationals: a file that ends within a rational coordinate makes the reader divide by zero;
with Boost an exception leaves `read_kigumi_region`, with GMP the process is killed. -/
theorem C40_full_claim_false : ¬ TruncationClaim .boost ∧ ¬ TruncationClaim .gmp := by
  constructor
  · intro hc
    obtain ⟨r', st', e⟩ := hc .little .little (N .boost) rfl exactRegion exactBytes (exact_storable _) exact_written 12 (by decide) []
    rw [cut_boost] at e; cases e
  · intro hc
    obtain ⟨r', st', e⟩ := hc .little .little (N .gmp) rfl exactRegion exactBytesGmp (exact_storable _) exact_written_gmp 12 (by decide) []
    rw [cut_gmp] at e; cases e

/-- **The claim that reading replaces the target is false**, for every number type: reading the file of a region into a target with faces gives the faces of both. -/
theorem C41_full_claim_false (b : Backend) : ¬ ReplaceClaim (N b) := by
  intro hc
  obtain ⟨bs, e⟩ := writeRegion_storable .little nullCodec (triangle_storable b)
  obtain ⟨r', st', e1, hs⟩ := (hc .little .little triangle rfl).1 triangle bs (triangle_storable b) e []
  obtain ⟨ps, buf', e2, -⟩ := C41_appends .little .little (N b) nullCodec _ nullCodec_lawful triangle (triangle_storable b) bs e triangle rfl [] []
  rw [List.append_nil, e1] at e2
  injection e2 with e2; injection e2 with _ e2; injection e2 with e2 _
  rw [e2] at hs
  have := congrArg List.length hs.2.1
  have h2 : (1 : Nat) = 2 := this
  omega

/-- **A failed read changes the target**: the kind, and the boundary. -/
theorem C41_failed_read_false (N : Numbers) : ∃ (bs : List Byte) (r' : RawRegion Unit) (st' : St), readRegion .little N nullCodec .fresh (mk bs []) = ok (false, r', st') ∧
    r'.kind = 2 ∧ r'.boundary.points.length = 1 := by
  refine ⟨[2, 1, 0, 0, 0, 0, 0, 0, 0], ?_⟩
  exact ⟨_, _, rfl, rfl, rfl⟩

/-- **The claim that regions read are valid is false**: a kind byte that is no kind, a boundary region without faces, an empty region with a face, and a face with a missing vertex are all accepted. -/
theorem C42_full_claim_false (N : Numbers) : ¬ ValidReadClaim N ∧
    (∃ st', readRegion .little N nullCodec .fresh (mk [7, 0, 0, 0, 0, 0, 0, 0, 0] []) = ok (true, ⟨7, ⟨[], [], []⟩⟩, st')) ∧
    (∃ st', readRegion .little N nullCodec .fresh (mk [2, 0, 0, 0, 0, 0, 0, 0, 0] []) = ok (true, ⟨2, ⟨[], [], []⟩⟩, st')) ∧
    (∃ st', readRegion .little N nullCodec .fresh (mk [0, 0, 0, 0, 0, 1, 0, 0, 0, 5, 0, 0, 0, 6, 0, 0, 0, 7, 0, 0, 0] []) = ok (true, ⟨0, ⟨[], [⟨5, 6, 7⟩], [()]⟩⟩, st')) := by
  refine ⟨?_, ⟨_, rfl⟩, ⟨_, rfl⟩, ⟨_, rfl⟩⟩
  intro hc
  obtain ⟨hk, -⟩ := hc .little [7, 0, 0, 0, 0, 0, 0, 0, 0] [] ⟨7, ⟨[], [], []⟩⟩ _ rfl
  rcases hk with ⟨hk, -⟩ | ⟨hk, -⟩
  · revert hk; decide
  · revert hk; decide

end Kigumi.IO
