import Verif.Model.BinaryIO
import Verif.Props.IntIO
import Mathlib.Data.Rat.Lemmas
import Mathlib.Algebra.Order.Field.Rat
import Mathlib.Tactic.FieldSimp
import Mathlib.Tactic.Ring
import Mathlib.Tactic.Linarith

/-!
# Readers of binary streams
-/
namespace Kigumi.IO
open Kigumi Outcome

variable {α β D : Type}

/-- A good stream with these bytes. -/
def mk (bs buf : List Byte) : St := ⟨⟨bs, false, false⟩, buf⟩

/-- The reader consumes exactly these bytes and yields the value. -/
def Reads (r : Rd α) (bs : List Byte) (a : α) : Prop := ∀ rest buf, ∃ buf', r (mk (bs ++ rest) buf) = ok (a, mk rest buf')

def Ended (st : St) : Prop := st.s.fail = true

/-- A stream that has failed stays so. -/
def Sticky (r : Rd α) : Prop := ∀ st a st', Ended st → r st = ok (a, st') → Ended st'

/-- No exception on a stream that has failed. -/
def Safe (r : Rd α) : Prop := ∀ st, Ended st → ∃ a st', r st = ok (a, st') ∧ Ended st'

/-- On a beginning of the bytes, the stream fails (or there is an exception). -/
def CutNo (r : Rd α) (bs : List Byte) : Prop := ∀ n < bs.length, ∀ buf a st', r (mk (bs.take n) buf) = ok (a, st') → Ended st'

/-- On these beginnings of the bytes, the stream fails and there is no exception. -/
def CutOk (r : Rd α) (bs : List Byte) (P : Nat → Prop) : Prop := ∀ n < bs.length, P n → ∀ buf, ∃ a st', r (mk (bs.take n) buf) = ok (a, st') ∧ Ended st'

theorem Safe.sticky {r : Rd α} (h : Safe r) : Sticky r := by
  intro st a st' he hr
  obtain ⟨a', st'', e, h'⟩ := h st he
  rw [hr] at e; cases e; exact h'

theorem reads_ret (a : α) : Reads (Rd.ret a) [] a := fun rest buf => ⟨buf, rfl⟩
theorem safe_ret (a : α) : Safe (Rd.ret a) := fun st h => ⟨a, st, rfl, h⟩
theorem cutNo_nil (r : Rd α) : CutNo r [] := fun n h => by simp at h
theorem cutOk_nil (r : Rd α) (P : Nat → Prop) : CutOk r [] P := fun n h => by simp at h

theorem Reads.bind {r : Rd α} {f : α → Rd β} {bs cs : List Byte} {a : α} {b : β} (h1 : Reads r bs a) (h2 : Reads (f a) cs b) : Reads (r.bind f) (bs ++ cs) b := by
  intro rest buf
  obtain ⟨buf1, e1⟩ := h1 (cs ++ rest) buf
  obtain ⟨buf2, e2⟩ := h2 rest buf1
  refine ⟨buf2, ?_⟩
  unfold Rd.bind
  rw [List.append_assoc, e1]; exact e2

theorem Reads.map {r : Rd α} {g : α → β} {bs : List Byte} {a : α} (h : Reads r bs a) : Reads (r.bind fun x => Rd.ret (g x)) bs (g a) := by
  have := h.bind (f := fun x => Rd.ret (g x)) (reads_ret (g a))
  rwa [List.append_nil] at this

theorem Sticky.bind {r : Rd α} {f : α → Rd β} (h1 : Sticky r) (h2 : ∀ a, Sticky (f a)) : Sticky (r.bind f) := by
  intro st b st' he h
  unfold Rd.bind at h
  cases hr : r st with
  | ok x => obtain ⟨a, st1⟩ := x; rw [hr] at h; exact h2 a st1 b st' (h1 st a st1 he hr) h
  | exn => rw [hr] at h; cases h
  | ub => rw [hr] at h; cases h

theorem Safe.bind {r : Rd α} {f : α → Rd β} (h1 : Safe r) (h2 : ∀ a, Safe (f a)) : Safe (r.bind f) := by
  intro st he
  obtain ⟨a, st1, e, he1⟩ := h1 st he
  obtain ⟨b, st2, e2, he2⟩ := h2 a st1 he1
  exact ⟨b, st2, by unfold Rd.bind; rw [e]; exact e2, he2⟩

theorem CutNo.bind {r : Rd α} {f : α → Rd β} {bs cs : List Byte} {a : α} (h1 : Reads r bs a) (c1 : CutNo r bs) (c2 : CutNo (f a) cs) (hs : ∀ x, Sticky (f x)) : CutNo (r.bind f) (bs ++ cs) := by
  intro n hn buf b st' h
  rw [List.length_append] at hn
  unfold Rd.bind at h
  by_cases hlt : n < bs.length
  · rw [List.take_append_of_le_length (by omega)] at h
    cases hr : r (mk (bs.take n) buf) with
    | ok x => obtain ⟨a', st1⟩ := x; rw [hr] at h; exact hs a' st1 b st' (c1 n hlt buf a' st1 hr) h
    | exn => rw [hr] at h; cases h
    | ub => rw [hr] at h; cases h
  · have e : (bs ++ cs).take n = bs ++ cs.take (n - bs.length) := by
      rw [List.take_append, List.take_of_length_le (by omega)]
    obtain ⟨buf1, e1⟩ := h1 (cs.take (n - bs.length)) buf
    rw [e, e1] at h
    exact c2 (n - bs.length) (by omega) buf1 b st' h

/-- Cuts of a concatenation. -/
def splitAt (k : Nat) (P Q : Nat → Prop) (n : Nat) : Prop := if n < k then P n else Q (n - k)

theorem CutOk.bind {r : Rd α} {f : α → Rd β} {bs cs : List Byte} {a : α} {P Q : Nat → Prop} (h1 : Reads r bs a) (c1 : CutOk r bs P) (c2 : CutOk (f a) cs Q) (hs : ∀ x, Safe (f x)) :
    CutOk (r.bind f) (bs ++ cs) (splitAt bs.length P Q) := by
  intro n hn hp buf
  rw [List.length_append] at hn
  unfold splitAt at hp
  unfold Rd.bind
  by_cases hlt : n < bs.length
  · rw [if_pos hlt] at hp
    rw [List.take_append_of_le_length (by omega)]
    obtain ⟨a', st1, e, he⟩ := c1 n hlt hp buf
    obtain ⟨b, st2, e2, he2⟩ := hs a' st1 he
    exact ⟨b, st2, by rw [e]; exact e2, he2⟩
  · rw [if_neg hlt] at hp
    have e : (bs ++ cs).take n = bs ++ cs.take (n - bs.length) := by
      rw [List.take_append, List.take_of_length_le (by omega)]
    obtain ⟨buf1, e1⟩ := h1 (cs.take (n - bs.length)) buf
    obtain ⟨b, st2, e2, he2⟩ := c2 (n - bs.length) (by omega) hp buf1
    exact ⟨b, st2, by rw [e, e1]; exact e2, he2⟩

theorem CutOk.mono {r : Rd α} {bs : List Byte} {P Q : Nat → Prop} (h : CutOk r bs P) (hpq : ∀ n < bs.length, Q n → P n) : CutOk r bs Q :=
  fun n hn hq => h n hn (hpq n hn hq)

theorem CutNo.map {r : Rd α} {g : α → β} {bs : List Byte} {a : α} (h : Reads r bs a) (c : CutNo r bs) : CutNo (r.bind fun x => Rd.ret (g x)) bs := by
  have := c.bind (f := fun x => Rd.ret (g x)) h (cutNo_nil _) (fun x => (safe_ret _).sticky)
  rwa [List.append_nil] at this

theorem CutOk.map {r : Rd α} {g : α → β} {bs : List Byte} {a : α} {P : Nat → Prop} (h : Reads r bs a) (c : CutOk r bs P) : CutOk (r.bind fun x => Rd.ret (g x)) bs P := by
  have := c.bind (f := fun x => Rd.ret (g x)) (Q := P) h (cutOk_nil _ _) (fun x => safe_ret _)
  rw [List.append_nil] at this
  exact this.mono (fun n hn hp => by unfold splitAt; rwa [if_pos hn])

theorem bind_ok {α β : Type} {x : Outcome α} {f : α → Outcome β} {b : β} (h : x.bind f = ok b) : ∃ a, x = ok a ∧ f a = ok b := by
  cases x with
  | ok a => exact ⟨a, rfl, h⟩
  | exn => cases h
  | ub => cases h

/-! ## Integers -/

theorem good_mk (bs buf : List Byte) : (mk bs buf).s.good = true := rfl

theorem fits_zero (t : IntTy) (hb : 0 < t.bytes) : Fits t 0 := by
  have p1 : (0 : Int) < 2 ^ (8 * t.bytes - 1) := Int.pow_pos (by decide)
  have p2 : (0 : Int) < 2 ^ (8 * t.bytes) := Int.pow_pos (by decide)
  unfold Fits; split <;> constructor <;> omega

theorem ended_not_good {st : St} (h : Ended st) : st.s.good = false := by
  unfold Ended at h; simp [In.good, h]

/-- Reading from a stream that has failed gives 0. -/
theorem rInt_ended (h : Host) {u t : IntTy} (hu : 0 < u.bytes) (ht : 0 < t.bytes) {st : St} (he : Ended st) : rInt h u t st = ok (0, { st with s := { st.s with fail := true } }) := by
  unfold rInt kigumiRead
  have hr : ∀ v : IntTy, 0 < v.bytes → readInt h v 0 st.s = ({ st.s with fail := true }, 0) := by
    intro v hv
    rw [readInt_zero, ended_not_good he, if_neg (by simp), wrap_of_fits hv (fits_zero v hv)]
  by_cases e : u = t
  · rw [if_pos e, hr t ht]; rfl
  · rw [if_neg e, hr u hu]
    show ((checkedCast t 0).bind _).bind _ = _
    rw [(C43_cast t ht 0).1 (fits_zero t ht)]; rfl

theorem safe_rInt (h : Host) {u t : IntTy} (hu : 0 < u.bytes) (ht : 0 < t.bytes) : Safe (rInt h u t) :=
  fun st he => ⟨0, _, rInt_ended h hu ht he, rfl⟩

theorem reads_rInt (h : Host) {u t : IntTy} (hu : 0 < u.bytes) (ht : 0 < t.bytes) {v : Int} (h1 : Fits u v) (h2 : Fits t v) : Reads (rInt h u t) (encode u v) v := by
  intro rest buf
  refine ⟨buf, ?_⟩
  obtain ⟨bs, e, -, hr⟩ := (C43_write_read h h u t t hu ht v h2).2 h1
  have eb : bs = encode u v := by
    have e' : kigumiWrite h u t v = ok (encode u v) := by
      unfold kigumiWrite
      by_cases hut : u = t
      · rw [if_pos hut, (C43_host t v h).1, hut]
      · rw [if_neg hut, (C43_cast u hu v).1 h1]
        show ok (writeInt h u v) = _
        rw [(C43_host u v h).1]
    rw [e] at e'; exact (Outcome.ok.inj e')
  subst eb
  unfold rInt
  show (kigumiRead h u t 0 ⟨encode u v ++ rest, false, false⟩).bind _ = _
  rw [(hr rest).1 h2]; rfl

/-- A stream that is too short fails. -/
theorem rInt_short (h : Host) (u t : IntTy) (bs buf : List Byte) (hl : bs.length < u.bytes) : rInt h u t (mk bs buf) =
    if u = t then ok (decode u bs, ⟨⟨[], true, true⟩, buf⟩) else (checkedCast t (decode u bs)).bind fun y => ok (y, ⟨⟨[], true, true⟩, buf⟩) := by
  have hr : readInt h u 0 (mk bs buf).s = (⟨[], true, true⟩, decode u bs) := by
    rw [readInt_zero, if_pos (good_mk bs buf)]
    show ((⟨bs.drop u.bytes, _, _⟩ : In), decode u (bs.take u.bytes)) = _
    rw [List.drop_of_length_le (by omega), List.take_of_length_le (by omega)]
    show ((⟨[], decide (bs.length < u.bytes), decide (bs.length < u.bytes)⟩ : In), _) = _
    simp [hl]
  unfold rInt kigumiRead
  by_cases e : u = t
  · subst e; rw [if_pos rfl, if_pos rfl, hr]; rfl
  · rw [if_neg e, if_neg e, hr]
    show ((checkedCast t _).bind _).bind _ = _
    cases checkedCast t (decode u bs) <;> rfl

theorem cutNo_rInt (h : Host) (u t : IntTy) (v : Int) : CutNo (rInt h u t) (encode u v) := by
  intro n hn buf a st' he
  rw [encode_length] at hn
  rw [rInt_short h u t _ buf (by rw [List.length_take, encode_length]; omega)] at he
  by_cases e : u = t
  · rw [if_pos e] at he; injection he with he; injection he with _ he; rw [← he]; exact rfl
  · rw [if_neg e] at he
    cases hc : checkedCast t (decode u ((encode u v).take n)) with
    | ok y => rw [hc] at he; injection he with he; injection he with _ he; rw [← he]; exact rfl
    | exn => rw [hc] at he; cases he
    | ub => rw [hc] at he; cases he

theorem cutOk_same (h : Host) (t : IntTy) (v : Int) (P : Nat → Prop) : CutOk (rInt h t t) (encode t v) P := by
  intro n hn _ buf
  rw [encode_length] at hn
  rw [rInt_short h t t _ buf (by rw [List.length_take, encode_length]; omega), if_pos rfl]
  exact ⟨_, _, rfl, rfl⟩

theorem cutOk_size (h : Host) (v : Int) (P : Nat → Prop) : CutOk (rInt h .int32 .size) (encode .int32 v) P := by
  intro n hn _ buf
  rw [encode_length] at hn
  have hl : ((encode IntTy.int32 v).take n).length = n := by rw [List.length_take, encode_length]; omega
  rw [rInt_short h _ _ _ buf (by rw [hl]; exact hn), if_neg (by decide)]
  have hlt := leVal_lt ((encode IntTy.int32 v).take n)
  rw [hl] at hlt
  have h3 : n ≤ 3 := by have : IntTy.int32.bytes = 4 := rfl; omega
  have hlt' : leVal ((encode IntTy.int32 v).take n) < 256 ^ 3 := lt_of_lt_of_le hlt (Nat.pow_le_pow_right (by decide) h3)
  have hf : Fits .int32 (leVal ((encode IntTy.int32 v).take n) : Int) := by
    generalize leVal ((encode IntTy.int32 v).take n) = m at *
    simp only [Fits, IntTy.int32, if_true]; norm_num at hlt' ⊢; omega
  have hd : decode .int32 ((encode IntTy.int32 v).take n) = (leVal ((encode IntTy.int32 v).take n) : Int) := wrap_of_fits (by decide) hf
  rw [hd, (C43_cast .size (by decide) _).1 (by simp only [Fits, IntTy.size, Bool.false_eq_true, if_false]; norm_num at hlt' ⊢; omega)]
  exact ⟨_, _, rfl, rfl⟩

/-! ## Sizes, flags, doubles -/

theorem write_size {h : Host} {n : Nat} {bs : List Byte} (e : kigumiWrite h .int32 .size n = ok bs) : bs = encode .int32 n ∧ Fits .int32 (n : Int) ∧ Fits .size (n : Int) := by
  by_cases hf : Fits .int32 (n : Int)
  · unfold kigumiWrite at e
    rw [if_neg (by decide), (C43_cast _ (by decide) _).1 hf] at e
    have e' : ok (writeInt h .int32 n) = ok bs := e
    rw [(C43_host _ _ h).1] at e'
    refine ⟨(Outcome.ok.inj e').symm, hf, ?_⟩
    simp only [Fits, IntTy.int32, IntTy.size, if_true, Bool.false_eq_true, if_false] at hf ⊢
    norm_num at hf ⊢; omega
  · unfold kigumiWrite at e
    rw [if_neg (by decide), (C43_cast _ (by decide) _).2 hf] at e; cases e

theorem reads_size {h h' : Host} {n : Nat} {bs : List Byte} (e : kigumiWrite h .int32 .size n = ok bs) : Reads (rSize h') bs n := by
  obtain ⟨rfl, h1, h2⟩ := write_size e
  exact (reads_rInt h' (u := .int32) (t := .size) (by decide) (by decide) h1 h2).map (g := Int.toNat)

theorem safe_size (h : Host) : Safe (rSize h) := (safe_rInt h (by decide) (by decide)).bind fun _ => safe_ret _

theorem cutNo_size {h h' : Host} {n : Nat} {bs : List Byte} (e : kigumiWrite h .int32 .size n = ok bs) : CutNo (rSize h') bs := by
  obtain ⟨rfl, h1, h2⟩ := write_size e
  exact (cutNo_rInt h' _ _ _).map (reads_rInt h' (u := .int32) (t := .size) (by decide) (by decide) h1 h2)

theorem cutOk_rSize {h h' : Host} {n : Nat} {bs : List Byte} (e : kigumiWrite h .int32 .size n = ok bs) (P : Nat → Prop) : CutOk (rSize h') bs P := by
  obtain ⟨rfl, h1, h2⟩ := write_size e
  exact (cutOk_size h' _ P).map (reads_rInt h' (u := .int32) (t := .size) (by decide) (by decide) h1 h2)

theorem fits_bit (b : Bool) : Fits .uint8 (if b then 1 else 0) := by cases b <;> simp [Fits, IntTy.uint8]

theorem writeBool_eq (h : Host) (b : Bool) : writeBool h b = encode .uint8 (if b then 1 else 0) := (C43_host _ _ h).1

theorem reads_bool (h h' : Host) (b : Bool) : Reads (rBool h') (writeBool h b) b := by
  rw [writeBool_eq]
  have := (reads_rInt h' (u := .uint8) (t := .uint8) (by decide) (by decide) (fits_bit b) (fits_bit b)).map (g := fun v : Int => decide (v ≠ 0))
  cases b <;> exact this

theorem rBool_ended (h : Host) {st : St} (he : Ended st) : ∃ st', rBool h st = ok (false, st') ∧ Ended st' := by
  refine ⟨{ st with s := { st.s with fail := true } }, ?_, rfl⟩
  unfold rBool Rd.bind
  rw [rInt_ended h (by decide) (by decide) he]; rfl

theorem safe_bool (h : Host) : Safe (rBool h) := (safe_rInt h (by decide) (by decide)).bind fun _ => safe_ret _

theorem cutNo_bool (h h' : Host) (b : Bool) : CutNo (rBool h') (writeBool h b) := by
  rw [writeBool_eq]
  exact (cutNo_rInt h' _ _ _).map (reads_rInt h' (u := .uint8) (t := .uint8) (by decide) (by decide) (fits_bit b) (fits_bit b))

theorem writeBool_length (h : Host) (b : Bool) : (writeBool h b).length = 1 := by rw [writeBool_eq, encode_length]; rfl

theorem fits_double {b : Nat} (hb : b < 2 ^ 64) : Fits ⟨false, 8⟩ (b : Int) := by
  simp only [Fits, Bool.false_eq_true, if_false]; norm_num at hb ⊢; omega

theorem reads_double (h h' : Host) {b : Nat} (hb : b < 2 ^ 64) : Reads (rDouble h') (writeDouble h b) b := by
  unfold writeDouble
  rw [(C43_host _ _ h).1]
  exact (reads_rInt h' (u := ⟨false, 8⟩) (t := ⟨false, 8⟩) (by decide) (by decide) (fits_double hb) (fits_double hb)).map (g := Int.toNat)

theorem safe_double (h : Host) : Safe (rDouble h) := (safe_rInt h (by decide) (by decide)).bind fun _ => safe_ret _

theorem cutOk_double (h h' : Host) {b : Nat} (hb : b < 2 ^ 64) (P : Nat → Prop) : CutOk (rDouble h') (writeDouble h b) P := by
  unfold writeDouble
  rw [(C43_host _ _ h).1]
  exact (cutOk_same h' _ _ P).map (reads_rInt h' (u := ⟨false, 8⟩) (t := ⟨false, 8⟩) (by decide) (by decide) (fits_double hb) (fits_double hb))

theorem CutOk.no {r : Rd α} {bs : List Byte} (h : CutOk r bs (fun _ => True)) : CutNo r bs := by
  intro n hn buf a st' e
  obtain ⟨a', st'', e', he⟩ := h n hn trivial buf
  rw [e] at e'; cases e'; exact he

theorem writeDouble_length (h : Host) (b : Nat) : (writeDouble h b).length = 8 := by unfold writeDouble; rw [(C43_host _ _ h).1, encode_length]

/-! ## Rational numbers -/

theorem magLoop_val (fuel v : Nat) (h : v ≤ fuel) : leVal (magLoop fuel v) = v := by
  induction fuel generalizing v with
  | zero => have : v = 0 := by omega
            subst this; rfl
  | succ fuel ih =>
    unfold magLoop
    split
    · next h0 => subst h0; rfl
    · next h0 =>
      simp only [leVal]
      rw [ih (v / 256) (by have := Nat.div_lt_self (Nat.pos_of_ne_zero h0) (by decide : 1 < 256); omega)]
      omega

theorem exportMag_val (b : Backend) (v : Nat) : leVal (exportMag b v).reverse = v := by
  unfold exportMag
  split
  · next h => subst h; cases b <;> rfl
  · rw [List.reverse_reverse, magLoop_val v v (Nat.le_refl v)]

/-- The second part of `rBlock`. -/
def blockBytes (count : Nat) : Rd Nat := fun st =>
  let (s, buf) := st.s.read (resize st.buf count)
  ok (leVal buf.reverse, ⟨s, buf⟩)

theorem resize_length (buf : List Byte) (n : Nat) : (resize buf n).length = n := by
  unfold resize; rw [List.length_append, List.length_take, List.length_replicate]; omega

theorem reads_bytes (bs : List Byte) : Reads (blockBytes bs.length) bs (leVal bs.reverse) := by
  intro rest buf
  refine ⟨bs, ?_⟩
  unfold blockBytes In.read
  rw [if_pos (good_mk _ _), resize_length]
  show ok (leVal ((bs ++ rest).take bs.length ++ _).reverse, (⟨⟨(bs ++ rest).drop bs.length, _, _⟩, (bs ++ rest).take bs.length ++ _⟩ : St)) = _
  have h1 : (mk (bs ++ rest) buf).s.rest = bs ++ rest := rfl
  have h2 : (resize (mk (bs ++ rest) buf).buf bs.length).drop bs.length = [] := List.drop_of_length_le (by rw [resize_length])
  simp only [h1, List.take_left, List.drop_left, h2, List.append_nil, Nat.lt_irrefl, decide_false]
  rfl

theorem sticky_bytes (n : Nat) : Sticky (blockBytes n) := by
  intro st a st' he h
  unfold blockBytes In.read at h
  rw [ended_not_good he] at h
  simp only [Bool.false_eq_true, if_false] at h
  injection h with h; injection h with _ h
  rw [← h]; exact rfl

theorem cutNo_bytes (bs : List Byte) : CutNo (blockBytes bs.length) bs := by
  intro n hn buf a st' h
  unfold blockBytes In.read at h
  rw [if_pos (good_mk _ _), resize_length] at h
  injection h with h; injection h with _ h
  rw [← h]
  show decide (_ < _) = true
  have h1 : (mk (bs.take n) buf).s.rest = bs.take n := rfl
  rw [h1, decide_eq_true_eq, List.length_take, List.length_take]; omega

theorem rBlock_eq (h : Host) : rBlock h = (rSize h).bind blockBytes := rfl

theorem writeBlock_ok {h : Host} {bs cs : List Byte} (e : writeBlock h bs = ok cs) : ∃ c, kigumiWrite h .int32 .size bs.length = ok c ∧ cs = c ++ bs := by
  unfold writeBlock at e
  cases hc : kigumiWrite h .int32 .size (bs.length : Int) with
  | ok c => rw [hc] at e; exact ⟨c, rfl, (Outcome.ok.inj e).symm⟩
  | exn => rw [hc] at e; cases e
  | ub => rw [hc] at e; cases e

theorem reads_block {h h' : Host} {bs cs : List Byte} (e : writeBlock h bs = ok cs) : Reads (rBlock h') cs (leVal bs.reverse) := by
  obtain ⟨c, hc, rfl⟩ := writeBlock_ok e
  rw [rBlock_eq]
  exact (reads_size hc).bind (reads_bytes bs)

theorem sticky_block (h : Host) : Sticky (rBlock h) := (safe_size h).sticky.bind sticky_bytes

theorem cutNo_block {h h' : Host} {bs cs : List Byte} (e : writeBlock h bs = ok cs) : CutNo (rBlock h') cs := by
  obtain ⟨c, hc, rfl⟩ := writeBlock_ok e
  rw [rBlock_eq]
  exact (cutNo_size hc).bind (reads_size hc) (cutNo_bytes bs) sticky_bytes

/-- The end of `rRat`. -/
def ratio (b : Backend) (neg : Bool) (num den : Nat) : Rd ℚ := fun st =>
  if den = 0 then (match b with
    | .boost => exn "division by zero"
    | .gmp => ub "division by zero")
  else ok (if neg then -((num : ℚ) / (den : ℚ)) else (num : ℚ) / (den : ℚ), st)

theorem rRat_eq (h : Host) (b : Backend) : rRat h b = (rBool h).bind fun neg => (rBlock h).bind fun num => (rBlock h).bind fun den => ratio b neg num den := rfl

theorem sticky_ratio (b : Backend) (neg : Bool) (num den : Nat) : Sticky (ratio b neg num den) := by
  intro st a st' he h
  unfold ratio at h
  split at h
  · cases b <;> cases h
  · injection h with h; injection h with _ h; rw [← h]; exact he

theorem ratio_value (q : ℚ) : (if decide (q < 0) then -((q.num.natAbs : ℚ) / (q.den : ℚ)) else (q.num.natAbs : ℚ) / (q.den : ℚ)) = q := by
  have hq := Rat.num_div_den q
  by_cases hneg : q < 0
  · rw [if_pos (by simpa using hneg)]
    have : q.num < 0 := Rat.num_neg.2 hneg
    have e : ((q.num.natAbs : ℕ) : ℚ) = -(q.num : ℚ) := by
      have : ((q.num.natAbs : ℕ) : ℤ) = -q.num := by omega
      rw [← Int.cast_natCast, this, Int.cast_neg]
    rw [e, neg_div, neg_neg, hq]
  · rw [if_neg (by simpa using hneg)]
    have : 0 ≤ q.num := Rat.num_nonneg.2 (not_lt.1 hneg)
    have e : ((q.num.natAbs : ℕ) : ℚ) = (q.num : ℚ) := by
      have : ((q.num.natAbs : ℕ) : ℤ) = q.num := by omega
      rw [← Int.cast_natCast, this]
    rw [e, hq]

theorem reads_ratio (b : Backend) (q : ℚ) : Reads (ratio b (decide (q < 0)) q.num.natAbs q.den) [] q := by
  intro rest buf
  refine ⟨buf, ?_⟩
  unfold ratio
  rw [if_neg q.den_nz, ratio_value]; rfl

theorem writeRat_ok {h : Host} {b : Backend} {q : ℚ} {cs : List Byte} (e : writeRat h b q = ok cs) : ∃ n d, writeBlock h (exportMag b q.num.natAbs) = ok n ∧ writeBlock h (exportMag b q.den) = ok d ∧
    cs = writeBool h (decide (q < 0)) ++ (n ++ (d ++ [])) := by
  unfold writeRat at e
  generalize exportMag b q.num.natAbs = x at *
  generalize exportMag b q.den = y at *
  obtain ⟨n, hn, e⟩ := bind_ok e
  obtain ⟨d, hd, e⟩ := bind_ok e
  refine ⟨n, d, hn, hd, ?_⟩
  rw [← Outcome.ok.inj e, List.append_nil, List.append_assoc]

theorem reads_rat {h h' : Host} {b : Backend} {q : ℚ} {cs : List Byte} (e : writeRat h b q = ok cs) : Reads (rRat h' b) cs q := by
  obtain ⟨n, d, hn, hd, rfl⟩ := writeRat_ok e
  rw [rRat_eq]
  refine (reads_bool h h' _).bind (Reads.bind (reads_block hn) (Reads.bind (reads_block hd) ?_))
  rw [exportMag_val, exportMag_val]
  exact reads_ratio b q

theorem sticky_rat (h : Host) (b : Backend) : Sticky (rRat h b) := by
  rw [rRat_eq]
  exact (safe_bool h).sticky.bind fun _ => (sticky_block h).bind fun _ => (sticky_block h).bind fun _ => sticky_ratio _ _ _ _

theorem cutNo_rat {h h' : Host} {b : Backend} {q : ℚ} {cs : List Byte} (e : writeRat h b q = ok cs) : CutNo (rRat h' b) cs := by
  obtain ⟨n, d, hn, hd, rfl⟩ := writeRat_ok e
  rw [rRat_eq]
  exact (cutNo_bool h h' _).bind (reads_bool h h' _) (CutNo.bind (reads_block hn) (cutNo_block hn) (CutNo.bind (reads_block hd) (cutNo_block hd) (cutNo_nil _) fun _ => sticky_ratio _ _ _ _)
    fun _ => (sticky_block h').bind fun _ => sticky_ratio _ _ _ _) fun _ => (sticky_block h').bind fun _ => (sticky_block h').bind fun _ => sticky_ratio _ _ _ _

end Kigumi.IO
