import Verif.Model.IntIO
import Verif.Tactics

/-!
# C43: narrowing conversions are checked
-/
namespace Kigumi.IO
open Kigumi Outcome

/-- The values of an integer type with the given number of bits. -/
def Fits (t : IntTy) (v : Int) : Prop :=
  if t.signed then -(2 : Int) ^ (8 * t.bytes - 1) ≤ v ∧ v < (2 : Int) ^ (8 * t.bytes - 1) else 0 ≤ v ∧ v < (2 : Int) ^ (8 * t.bytes)

theorem fits_iff (t : IntTy) (v : Int) : Fits t v ↔ t.min ≤ v ∧ v < t.sup := by
  unfold Fits IntTy.min IntTy.sup IntTy.bits
  cases t.signed <;> simp

theorem two_pow (t : IntTy) (h : 0 < t.bytes) : (2 : Int) ^ t.bits = 2 * 2 ^ (t.bits - 1) := by
  unfold IntTy.bits
  have : 8 * t.bytes = (8 * t.bytes - 1) + 1 := by omega
  conv => lhs; rw [this]
  rw [Int.pow_succ]; omega

theorem wrap_of_fits {t : IntTy} (hb : 0 < t.bytes) {v : Int} (h : Fits t v) : t.wrap v = v := by
  have e := two_pow t hb
  have pos : (0 : Int) < 2 ^ (t.bits - 1) := Int.pow_pos (by decide)
  rw [fits_iff] at h
  unfold IntTy.min IntTy.sup at h
  unfold IntTy.wrap
  push_cast at *
  cases hs : t.signed
  · simp only [hs, Bool.false_eq_true, if_false] at h
    simp only [Bool.false_and, Bool.false_eq_true, if_false]
    exact Int.emod_eq_of_lt h.1 h.2
  · simp only [hs, if_true] at h
    simp only [Bool.true_and, decide_eq_true_eq]
    generalize (2 : Int) ^ (t.bits - 1) = p at *
    rw [e]
    by_cases hv : 0 ≤ v
    · rw [Int.emod_eq_of_lt hv (by omega), if_neg (by omega)]
    · have : v % (2 * p) = v + 2 * p := by
        rw [← Int.add_emod_right, Int.emod_eq_of_lt (by omega) (by omega)]
      rw [this, if_pos (by omega)]; omega

theorem wrap_fits {t : IntTy} (hb : 0 < t.bytes) (v : Int) : Fits t (t.wrap v) := by
  have e := two_pow t hb
  have pos : (0 : Int) < 2 ^ (t.bits - 1) := Int.pow_pos (by decide)
  rw [fits_iff]
  unfold IntTy.min IntTy.sup IntTy.wrap
  push_cast
  have h1 : 0 ≤ v % 2 ^ t.bits := Int.emod_nonneg _ (by omega)
  have h2 : v % 2 ^ t.bits < 2 ^ t.bits := Int.emod_lt_of_pos _ (by omega)
  cases hs : t.signed
  · simp only [Bool.false_eq_true, if_false, Bool.false_and]; exact ⟨h1, h2⟩
  · simp only [if_true, Bool.true_and, decide_eq_true_eq]
    split <;> omega

/-- **A conversion preserves the value or throws**: it throws exactly for the values that the target type does not have. -/
theorem C43_cast (t : IntTy) (hb : 0 < t.bytes) (v : Int) : (Fits t v → checkedCast t v = ok v) ∧ (¬ Fits t v → checkedCast t v = exn "checked_cast failed") := by
  unfold checkedCast
  constructor
  · intro h
    have := (fits_iff t v).1 h
    rw [if_neg (by simp [this]), wrap_of_fits hb h]
  · intro h
    rw [fits_iff] at h
    rw [if_pos (by simp only [Bool.not_eq_true', Bool.and_eq_false_iff, decide_eq_false_iff_not]; tauto)]

theorem leBytes_length (n v : Nat) : (leBytes n v).length = n := by
  induction n generalizing v with
  | zero => rfl
  | succ n ih => simp [leBytes, ih]

theorem leVal_leBytes (n v : Nat) : leVal (leBytes n v) = v % 256 ^ n := by
  induction n generalizing v with
  | zero => simp [leBytes, leVal, Nat.mod_one]
  | succ n ih =>
    simp only [leBytes, leVal, ih]
    rw [Nat.pow_succ, Nat.mul_comm (256 ^ n) 256, Nat.mod_mul]

theorem leVal_lt (bs : List Byte) : leVal bs < 256 ^ bs.length := by
  induction bs with
  | nil => simp [leVal]
  | cons b bs ih =>
    simp only [leVal, List.length_cons, Nat.pow_succ]
    have := b.isLt
    omega

theorem leBytes_leVal (bs : List Byte) : leBytes bs.length (leVal bs) = bs := by
  induction bs with
  | nil => rfl
  | cons b bs ih =>
    simp only [List.length_cons, leBytes, leVal]
    have := b.isLt
    have h1 : (b.val + 256 * leVal bs) % 256 = b.val := by omega
    have h2 : (b.val + 256 * leVal bs) / 256 = leVal bs := by omega
    rw [h2, ih]
    congr 1
    exact Fin.ext h1

theorem store_length (h : Host) (t : IntTy) (v : Int) : (store h t v).length = t.bytes := by
  unfold store; cases h <;> simp [leBytes_length]

/-- The bytes written, least significant first, on every host. -/
def encode (t : IntTy) (v : Int) : List Byte := leBytes t.bytes (v % (2 ^ t.bits : Nat)).toNat

theorem leBytes_zero (n : Nat) : leBytes n 0 = List.replicate n 0 := by
  induction n with
  | zero => rfl
  | succ n ih => simp only [leBytes, Nat.zero_div, ih, List.replicate_succ]; rfl

/-- Reading into a variable with value 0, in terms of bytes. -/
def decode (t : IntTy) (bs : List Byte) : Int := t.wrap (leVal bs)

theorem leVal_append (xs ys : List Byte) : leVal (xs ++ ys) = leVal xs + 256 ^ xs.length * leVal ys := by
  induction xs with
  | nil => simp [leVal]
  | cons x xs ih =>
    simp only [List.cons_append, leVal, ih, List.length_cons, Nat.pow_succ]
    rw [Nat.mul_add, Nat.mul_comm (256 ^ xs.length) 256, Nat.mul_assoc]; omega

theorem leVal_zeros (n : Nat) : leVal (List.replicate n 0) = 0 := by
  induction n with
  | zero => rfl
  | succ n ih => simp only [List.replicate_succ, leVal, ih]; rfl

theorem store_zero (h : Host) (t : IntTy) : store h t 0 = List.replicate t.bytes 0 := by
  unfold store; cases h <;> simp [leBytes_zero]

theorem readInt_zero (h : Host) (t : IntTy) (s : In) :
    readInt h t 0 s = if s.good then (⟨s.rest.drop t.bytes, decide (s.rest.length < t.bytes), decide (s.rest.length < t.bytes)⟩, decode t (s.rest.take t.bytes)) else ({ s with fail := true }, t.wrap 0) := by
  unfold readInt In.read
  rw [store_zero]
  have hload : ∀ m, load h t (swapLittle h m) = t.wrap (leVal m) := by
    intro m; unfold load swapLittle; cases h <;> simp
  by_cases hg : s.good = true
  · rw [if_pos hg, if_pos hg]
    have hlt : ((s.rest.take t.bytes).length < t.bytes) ↔ s.rest.length < t.bytes := by rw [List.length_take]; omega
    simp only [hload, List.length_replicate, hlt, List.drop_replicate, leVal_append, leVal_zeros, Nat.mul_zero, Nat.add_zero, decode]
  · rw [if_neg hg, if_neg hg]
    simp only [hload, leVal_zeros]; rfl

/-- **The format does not depend on the byte order of the host**: the same bytes are written, and the same value is read (into a variable with value 0, as everywhere in
the library), even from a stream that ends too early. -/
theorem C43_host (t : IntTy) (v : Int) (h : Host) : writeInt h t v = encode t v ∧ ∀ s, readInt h t 0 s = readInt .little t 0 s := by
  constructor
  · unfold writeInt swapLittle store encode; cases h <;> simp
  · intro s
    rw [readInt_zero, readInt_zero]

theorem encode_length (t : IntTy) (v : Int) : (encode t v).length = t.bytes := leBytes_length _ _

theorem wrap_mod (t : IntTy) (v : Int) : t.wrap (v % (2 ^ t.bits : Nat)) = t.wrap v := by
  unfold IntTy.wrap; rw [Int.emod_emod_of_dvd _ (Int.dvd_refl _)]

theorem decode_encode {t : IntTy} (hb : 0 < t.bytes) {v : Int} (hv : Fits t v) : decode t (encode t v) = v := by
  unfold decode encode
  rw [leVal_leBytes]
  have hp : (2 : Nat) ^ t.bits = 256 ^ t.bytes := by unfold IntTy.bits; rw [Nat.pow_mul]
  have pos : (0 : Int) < (2 ^ t.bits : Nat) := by exact_mod_cast Nat.pow_pos (by decide)
  have h1 : 0 ≤ v % (2 ^ t.bits : Nat) := Int.emod_nonneg _ (by omega)
  have h2 : v % (2 ^ t.bits : Nat) < (2 ^ t.bits : Nat) := Int.emod_lt_of_pos _ pos
  have h3 : ((v % (2 ^ t.bits : Nat)).toNat % 256 ^ t.bytes : Nat) = (v % (2 ^ t.bits : Nat)).toNat := by
    rw [← hp]; apply Nat.mod_eq_of_lt; omega
  rw [h3, Int.toNat_of_nonneg h1, wrap_mod]
  exact wrap_of_fits hb hv

/-- **Integers are written and read without silent truncation or change of sign**: a value that the type in the file does not have is not written, an error is raised.
Any other value is written with the size of that type, and reading the bytes (from a stream with any further content, on any host) gives the value if the
target variable can hold it, and raises an error otherwise. -/
theorem C43_write_read (h h' : Host) (u t w : IntTy) (hu : 0 < u.bytes) (hw : 0 < w.bytes) (v : Int) (hv : Fits t v) :
    (¬ Fits u v → kigumiWrite h u t v = exn "checked_cast failed") ∧
    (Fits u v → ∃ bs, kigumiWrite h u t v = ok bs ∧ bs.length = u.bytes ∧ ∀ rest,
      (Fits w v → kigumiRead h' u w 0 ⟨bs ++ rest, false, false⟩ = ok (⟨rest, false, false⟩, v)) ∧
      (¬ Fits w v → kigumiRead h' u w 0 ⟨bs ++ rest, false, false⟩ = exn "checked_cast failed")) := by
  constructor
  · intro hn
    unfold kigumiWrite
    have hne : u ≠ t := fun e => hn (e ▸ hv)
    rw [if_neg hne, (C43_cast u hu v).2 hn]; rfl
  · intro hf
    refine ⟨encode u v, ?_, encode_length u v, ?_⟩
    · unfold kigumiWrite
      by_cases e : u = t
      · rw [if_pos e, (C43_host t v h).1, e]
      · rw [if_neg e, (C43_cast u hu v).1 hf]
        show ok (writeInt h u v) = _
        rw [(C43_host u v h).1]
    · intro rest
      have hr : readInt h' u 0 ⟨encode u v ++ rest, false, false⟩ = (⟨rest, false, false⟩, v) := by
        rw [readInt_zero, if_pos (show In.good ⟨encode u v ++ rest, false, false⟩ = true from rfl)]
        have hl := encode_length u v
        have hd : (encode u v ++ rest).drop u.bytes = rest := by rw [← hl, List.drop_left]
        have ht : (encode u v ++ rest).take u.bytes = encode u v := by rw [← hl, List.take_left]
        have hnl : ¬ (encode u v ++ rest).length < u.bytes := by rw [List.length_append, hl]; omega
        simp only [hd, ht, decode_encode hu hf, hnl, decide_false]
      constructor
      · intro hfw
        unfold kigumiRead
        by_cases e : u = w
        · subst e; rw [if_pos rfl, hr]
        · rw [if_neg e, hr]
          show (checkedCast w v).bind _ = _
          rw [(C43_cast w hw v).1 hfw]; rfl
      · intro hfw
        unfold kigumiRead
        have e : u ≠ w := fun e => hfw (e ▸ hf)
        rw [if_neg e, hr]
        show (checkedCast w v).bind _ = _
        rw [(C43_cast w hw v).2 hfw]; rfl

/-- **What is read always fits**: whatever the stream contains, the value read is a value of the target type. -/
theorem C43_read_fits (h : Host) (u w : IntTy) (hw : 0 < w.bytes) (s s' : In) (y : Int) (he : kigumiRead h u w 0 s = ok (s', y)) : Fits w y := by
  have key : ∀ t : IntTy, 0 < t.bytes → Fits t (readInt h t 0 s).2 := by
    intro t ht
    rw [readInt_zero]
    split
    · exact wrap_fits ht _
    · exact wrap_fits ht 0
  unfold kigumiRead at he
  by_cases e : u = w
  · rw [if_pos e] at he
    injection he with he
    have := key w hw
    rw [he] at this; exact this
  · rw [if_neg e] at he
    dsimp only at he
    by_cases hf : Fits w (readInt h u 0 s).2
    · rw [(C43_cast w hw _).1 hf] at he
      injection he with he
      injection he with _ he
      rw [← he]; exact hf
    · rw [(C43_cast w hw _).2 hf] at he; cases he

/-! ### Examples -/

/-- 2^31 vertices cannot be written as a 32-bit number; 2^31 - 1 can. -/
example : kigumiWrite .big .int32 .size 2147483648 = exn "checked_cast failed" := by decide +kernel
example : kigumiWrite .big .int32 .size 2147483647 = ok [255, 255, 255, 127] := by decide +kernel
/-- A negative number in the file is not accepted as a size. -/
example : kigumiRead .little .int32 .size 0 ⟨[254, 255, 255, 255, 7], false, false⟩ = exn "checked_cast failed" := by decide +kernel
example : kigumiRead .little .int32 .size 0 ⟨[254, 1, 0, 0, 7], false, false⟩ = ok (⟨[7], false, false⟩, 510) := by decide +kernel
/-- A stream that ends too early: the low bytes are used, the stream has failed. -/
example : kigumiRead .big .int32 .size 0 ⟨[254, 1], false, false⟩ = ok (⟨[], true, true⟩, 510) := by decide +kernel
/-- An invalid vertex index (all bits set) cannot be written. -/
example : kigumiWrite .little .int32 .size 18446744073709551615 = exn "checked_cast failed" := by decide +kernel

end Kigumi.IO
