import Verif.Props.BinaryIO
import Verif.Spec.BinaryRead

/-!
# Exactly what the readers of binary streams take
-/
namespace Kigumi.IO
open Kigumi Outcome BinSpec

variable {α β D : Type}

/-- The reader takes from a good stream exactly these beginnings, or the stream fails, or there is an exception. -/
structure Exact (r : Rd α) (R : Bytes → α → Prop) : Prop where
  sticky : Sticky r
  reads : ∀ bs a, R bs a → Reads r bs a
  only : ∀ bs buf a st', r (mk bs buf) = ok (a, st') → Ended st' ∨ ∃ cs rest buf', bs = cs ++ rest ∧ R cs a ∧ st' = mk rest buf'

theorem Exact.congr {r : Rd α} {R S : Bytes → α → Prop} (h : Exact r R) (e : ∀ bs a, R bs a ↔ S bs a) : Exact r S :=
  ⟨h.sticky, fun bs a k => h.reads bs a ((e bs a).2 k), fun bs buf a st' k => (h.only bs buf a st' k).imp_right fun ⟨cs, rest, buf', h1, h2, h3⟩ => ⟨cs, rest, buf', h1, (e cs a).1 h2, h3⟩⟩

/-- One after another, where what follows depends on the value. -/
def Then (R : Bytes → α → Prop) (S : α → Bytes → β → Prop) (bs : Bytes) (b : β) : Prop := ∃ xs ys a, bs = xs ++ ys ∧ R xs a ∧ S a ys b

theorem exact_ret (a : α) : Exact (Rd.ret a) (fun bs b => bs = [] ∧ b = a) := by
  refine ⟨(safe_ret a).sticky, ?_, ?_⟩
  · rintro bs b ⟨rfl, rfl⟩; exact reads_ret _
  · intro bs buf b st' e
    cases e
    exact .inr ⟨[], bs, buf, rfl, ⟨rfl, rfl⟩, rfl⟩

theorem Exact.bind {r : Rd α} {f : α → Rd β} {R : Bytes → α → Prop} {S : α → Bytes → β → Prop} (h : Exact r R) (hf : ∀ a, Exact (f a) (S a)) : Exact (r.bind f) (Then R S) := by
  refine ⟨h.sticky.bind fun a => (hf a).sticky, ?_, ?_⟩
  · rintro bs b ⟨xs, ys, a, rfl, h1, h2⟩
    exact (h.reads xs a h1).bind ((hf a).reads ys b h2)
  · intro bs buf b st' e
    obtain ⟨a, st1, e1, e2⟩ := bind_inv e
    rcases h.only bs buf a st1 e1 with k | ⟨cs, rest, buf1, rfl, k1, rfl⟩
    · exact .inl ((hf a).sticky st1 b st' k e2)
    · rcases (hf a).only rest buf1 b st' e2 with k | ⟨ds, rest', buf2, rfl, k2, rfl⟩
      · exact .inl k
      · exact .inr ⟨cs ++ ds, rest', buf2, by rw [List.append_assoc], ⟨cs, ds, a, rfl, k1, k2⟩, rfl⟩

theorem Exact.map {r : Rd α} {R : Bytes → α → Prop} (h : Exact r R) (g : α → β) : Exact (r.bind fun a => Rd.ret (g a)) (fun bs b => ∃ a, R bs a ∧ b = g a) := by
  refine (h.bind fun a => exact_ret (g a)).congr fun bs b => ⟨?_, ?_⟩
  · rintro ⟨xs, ys, a, rfl, h1, rfl, rfl⟩; exact ⟨a, by rwa [List.append_nil], rfl⟩
  · rintro ⟨a, h1, rfl⟩; exact ⟨bs, [], a, by rw [List.append_nil], h1, rfl, rfl⟩

/-- Two beginnings of the same bytes that are taken are the same, with the same value. -/
theorem Exact.unique {r : Rd α} {R : Bytes → α → Prop} (h : Exact r R) {xs ys rest rest' : Bytes} {a b : α} (e : xs ++ rest = ys ++ rest') (h1 : R xs a) (h2 : R ys b) : xs = ys ∧ a = b := by
  obtain ⟨buf1, e1⟩ := h.reads xs a h1 rest []
  obtain ⟨buf2, e2⟩ := h.reads ys b h2 rest' []
  rw [e, e2] at e1
  injection e1 with e1
  injection e1 with e3 e4
  have e5 : rest' = rest := by injection e4 with e4; injection e4
  subst e5
  exact ⟨List.append_cancel_right e, e3.symm⟩

/-! ## Integers -/

theorem leVal_big (bs : Bytes) : leVal bs.reverse = big bs := by
  unfold big
  have : ∀ (xs : Bytes) (v : Nat), xs.foldl (fun v b => 256 * v + b.val) v = leVal xs.reverse + 256 ^ xs.length * v := by
    intro xs
    induction xs with
    | nil => intro v; simp [leVal]
    | cons x xs ih =>
      intro v
      rw [List.foldl_cons, ih, List.reverse_cons, leVal_append, List.length_reverse, List.length_cons, Nat.pow_succ]
      simp only [leVal]; ring
  rw [this]; simp

theorem leVal_little (bs : Bytes) : leVal bs = little bs := by
  unfold little; rw [← leVal_big, List.reverse_reverse]

/-- A stream that is long enough. -/
theorem rInt_full (h : Host) (u t : IntTy) (bs rest buf : Bytes) (hl : bs.length = u.bytes) : rInt h u t (mk (bs ++ rest) buf) =
    if u = t then ok (decode u bs, mk rest buf) else (checkedCast t (decode u bs)).bind fun y => ok (y, mk rest buf) := by
  have hr : readInt h u 0 (mk (bs ++ rest) buf).s = (⟨rest, false, false⟩, decode u bs) := by
    rw [readInt_zero, if_pos (good_mk _ buf)]
    show ((⟨(bs ++ rest).drop u.bytes, decide ((bs ++ rest).length < u.bytes), decide ((bs ++ rest).length < u.bytes)⟩ : In), decode u ((bs ++ rest).take u.bytes)) = _
    rw [← hl, List.drop_left, List.take_left]; simp
  unfold rInt kigumiRead
  by_cases e : u = t
  · subst e; rw [if_pos rfl, if_pos rfl, hr]; rfl
  · rw [if_neg e, if_neg e, hr]
    show ((checkedCast t _).bind _).bind _ = _
    cases checkedCast t (decode u bs) <;> rfl

theorem rInt_short_ended {h : Host} {u t : IntTy} {bs buf : Bytes} {a : Int} {st' : St} (hl : bs.length < u.bytes) (e : rInt h u t (mk bs buf) = ok (a, st')) : Ended st' := by
  rw [rInt_short h u t bs buf hl] at e
  split at e
  · cases e; rfl
  · obtain ⟨y, -, e⟩ := bind_ok e; cases e; rfl

theorem exact_rInt (h : Host) (u t : IntTy) (hu : 0 < u.bytes) (ht : 0 < t.bytes) : Exact (rInt h u t) (fun bs v => bs.length = u.bytes ∧ decode u bs = v ∧ (u = t ∨ Fits t v)) := by
  refine ⟨(safe_rInt h hu ht).sticky, ?_, ?_⟩
  · rintro bs v ⟨hl, rfl, k⟩ rest buf
    refine ⟨buf, ?_⟩
    rw [rInt_full h u t bs rest buf hl]
    by_cases e : u = t
    · rw [if_pos e]
    · rw [if_neg e, (C43_cast t ht _).1 (k.resolve_left e)]; rfl
  · intro bs buf v st' e
    by_cases hl : bs.length < u.bytes
    · exact .inl (rInt_short_ended hl e)
    · right
      have hlen : (bs.take u.bytes).length = u.bytes := by rw [List.length_take]; omega
      refine ⟨bs.take u.bytes, bs.drop u.bytes, buf, (List.take_append_drop _ _).symm, ?_⟩
      rw [← List.take_append_drop u.bytes bs, rInt_full h u t _ _ buf hlen] at e
      by_cases ht' : u = t
      · rw [if_pos ht'] at e; cases e; exact ⟨⟨hlen, rfl, .inl ht'⟩, rfl⟩
      · rw [if_neg ht'] at e
        by_cases hf : Fits t (decode u (bs.take u.bytes))
        · rw [(C43_cast t ht _).1 hf] at e; cases e; exact ⟨⟨hlen, rfl, .inr hf⟩, rfl⟩
        · rw [(C43_cast t ht _).2 hf] at e; cases e

theorem pow256 (n : Nat) : 256 ^ n = 2 ^ (8 * n) := by rw [Nat.pow_mul]

theorem little_lt (bs : Bytes) : little bs < 2 ^ (8 * bs.length) := by rw [← leVal_little, ← pow256]; exact leVal_lt bs

/-- Without a sign, the value is the number. -/
theorem decode_unsigned {n : Nat} (hn : 0 < n) {bs : Bytes} (hl : bs.length = n) : decode ⟨false, n⟩ bs = little bs := by
  unfold decode
  rw [leVal_little]
  refine wrap_of_fits hn ?_
  have := little_lt bs
  rw [hl] at this
  simp only [Fits, Bool.false_eq_true, if_false]
  exact ⟨Int.natCast_nonneg _, by exact_mod_cast this⟩

theorem decode_fits {t : IntTy} (ht : 0 < t.bytes) (bs : Bytes) : Fits t (decode t bs) := by
  unfold decode
  generalize (leVal bs : Int) = v
  have e := two_pow t ht
  have p : (0 : Int) < ((2 ^ t.bits : Nat) : Int) := by exact_mod_cast Nat.pow_pos (by decide)
  have h1 := Int.emod_nonneg v p.ne'
  have h2 := Int.emod_lt_of_pos v p
  rw [fits_iff]
  unfold IntTy.wrap IntTy.min IntTy.sup
  push_cast at *
  cases t.signed
  · simp only [Bool.false_and, Bool.false_eq_true, if_false]; exact ⟨h1, h2⟩
  · simp only [Bool.true_and, if_true, decide_eq_true_eq]
    split <;> constructor <;> omega

theorem decode_iff {t : IntTy} (ht : 0 < t.bytes) {bs : Bytes} (hl : bs.length = t.bytes) (v : Int) : decode t bs = v ↔ v % (2 : Int) ^ (8 * t.bytes) = little bs ∧ Fits t v := by
  have hlt := little_lt bs
  rw [hl] at hlt
  have hmod : decode t bs % (2 : Int) ^ (8 * t.bytes) = little bs := by
    unfold decode
    rw [leVal_little]
    have hb : ((2 ^ t.bits : Nat) : Int) = (2 : Int) ^ (8 * t.bytes) := by unfold IntTy.bits; push_cast; rfl
    have h0 : (little bs : Int) % (2 : Int) ^ (8 * t.bytes) = little bs := Int.emod_eq_of_lt (Int.natCast_nonneg _) (by exact_mod_cast hlt)
    unfold IntTy.wrap
    dsimp only
    rw [hb, h0]
    split
    · rw [Int.sub_emod_right, h0]
    · exact h0
  constructor
  · rintro rfl; exact ⟨hmod, decode_fits ht bs⟩
  · rintro ⟨h1, h2⟩
    have h3 : t.wrap v = v := wrap_of_fits ht h2
    have h4 : t.wrap (decode t bs) = decode t bs := wrap_of_fits ht (decode_fits ht bs)
    rw [← h3, ← h4, ← wrap_mod t v, ← wrap_mod t (decode t bs)]
    have hb : ((2 ^ t.bits : Nat) : Int) = (2 : Int) ^ (8 * t.bytes) := by unfold IntTy.bits; push_cast; rfl
    rw [hb, hmod, h1]

theorem exact_size (h : Host) : Exact (rSize h) IsCount := by
  refine ((exact_rInt h .int32 .size (by decide) (by decide)).map Int.toNat).congr fun bs n => ⟨?_, ?_⟩
  · rintro ⟨v, ⟨hl, hv, k⟩, rfl⟩
    have hf := k.resolve_left (by decide)
    obtain ⟨h1, h2⟩ := (decode_iff (t := .int32) (by decide) hl v).1 hv
    simp only [Fits, IntTy.int32, IntTy.size, if_true, Bool.false_eq_true, if_false] at hf h1 h2
    norm_num at hf h1 h2
    refine ⟨hl, ?_, ?_⟩
    · rw [Int.emod_eq_of_lt hf.1 (by omega)] at h1; omega
    · norm_num; omega
  · rintro ⟨hl, h1, h2⟩
    norm_num at h2
    refine ⟨n, ⟨hl, (decode_iff (t := .int32) (by decide) hl _).2 ⟨?_, ?_⟩, .inr ?_⟩, by simp⟩
    · simp only [IntTy.int32]; norm_num; rw [Int.emod_eq_of_lt (by omega) (by omega), h1]
    · simp only [Fits, IntTy.int32, if_true]; norm_num; omega
    · simp only [Fits, IntTy.size, Bool.false_eq_true, if_false]; norm_num; omega

theorem exact_unsigned (h : Host) {n : Nat} (hn : 0 < n) : Exact (rInt h ⟨false, n⟩ ⟨false, n⟩) (fun bs v => bs.length = n ∧ v = little bs) := by
  refine (exact_rInt h _ _ hn hn).congr fun bs v => ⟨?_, ?_⟩
  · rintro ⟨hl, rfl, -⟩; exact ⟨hl, decode_unsigned hn hl⟩
  · rintro ⟨hl, rfl⟩; exact ⟨hl, decode_unsigned hn hl, .inl rfl⟩

theorem exact_double (h : Host) : Exact (rDouble h) IsDouble := by
  refine ((exact_unsigned h (n := 8) (by decide)).map Int.toNat).congr fun bs v => ⟨?_, ?_⟩
  · rintro ⟨v, ⟨hl, rfl⟩, rfl⟩; exact ⟨hl, by simp⟩
  · rintro ⟨hl, rfl⟩; exact ⟨_, ⟨hl, rfl⟩, by simp⟩

theorem one_byte {bs : Bytes} (hl : bs.length = 1) : ∃ b, bs = [b] := by
  match bs, hl with
  | [b], _ => exact ⟨b, rfl⟩

theorem little_one (b : Fin 256) : little [b] = b.val := by simp [little, big]

theorem exact_byte (h : Host) : Exact (rInt h .uint8 .uint8) (fun bs v => ∃ b : Fin 256, bs = [b] ∧ v = b.val) := by
  refine (exact_unsigned h (n := 1) (by decide)).congr fun bs v => ⟨?_, ?_⟩
  · rintro ⟨hl, rfl⟩
    obtain ⟨b, rfl⟩ := one_byte hl
    exact ⟨b, rfl, by rw [little_one]⟩
  · rintro ⟨b, rfl, rfl⟩; exact ⟨rfl, by rw [little_one]⟩

theorem byte_ne (b : Fin 256) : decide (((b.val : Nat) : Int) ≠ 0) = decide (b ≠ 0) := by
  apply decide_eq_decide.2
  constructor
  · intro k e; exact k (by rw [e]; rfl)
  · intro k e; exact k (Fin.ext (Int.ofNat.inj e))

theorem exact_bool (h : Host) : Exact (rBool h) (fun bs v => ∃ b : Fin 256, bs = [b] ∧ v = decide (b ≠ 0)) := by
  refine ((exact_byte h).map fun v : Int => decide (v ≠ 0)).congr fun bs v => ⟨?_, ?_⟩
  · rintro ⟨v, ⟨b, rfl, rfl⟩, rfl⟩; exact ⟨b, rfl, byte_ne b⟩
  · rintro ⟨b, rfl, rfl⟩; exact ⟨_, ⟨b, rfl, rfl⟩, (byte_ne b).symm⟩

/-! ## Rational numbers -/

theorem exact_bytes (n : Nat) : Exact (blockBytes n) (fun bs v => bs.length = n ∧ big bs = v) := by
  refine ⟨sticky_bytes n, ?_, ?_⟩
  · rintro bs v ⟨rfl, rfl⟩
    have := reads_bytes bs
    rwa [leVal_big] at this
  · intro bs buf v st' e
    by_cases hl : bs.length < n
    · left
      unfold blockBytes In.read at e
      rw [if_pos (good_mk bs buf), resize_length] at e
      cases e
      show decide (_ < n) = true
      rw [decide_eq_true_eq, List.length_take]
      exact lt_of_le_of_lt (Nat.min_le_right _ _) hl
    · right
      have hlen : (bs.take n).length = n := by rw [List.length_take]; omega
      obtain ⟨buf', e'⟩ := reads_bytes (bs.take n) (bs.drop n) buf
      rw [List.take_append_drop, hlen, e] at e'
      cases e'
      exact ⟨bs.take n, bs.drop n, buf', (List.take_append_drop _ _).symm, ⟨hlen, (leVal_big _).symm⟩, rfl⟩

theorem exact_natural (h : Host) : Exact (rBlock h) IsNatural := by
  rw [rBlock_eq]
  refine ((exact_size h).bind exact_bytes).congr fun bs v => ⟨?_, ?_⟩
  · rintro ⟨xs, ys, a, rfl, h1, rfl, h3⟩; exact ⟨xs, ys, rfl, h1, h3⟩
  · rintro ⟨c, ds, rfl, h1, h2⟩; exact ⟨c, ds, _, rfl, h1, rfl, h2⟩

theorem exact_ratio (b : Backend) (neg : Bool) (n d : Nat) :
    Exact (ratio b neg n d) (fun bs q => bs = [] ∧ d ≠ 0 ∧ q = if neg then -((n : ℚ) / (d : ℚ)) else (n : ℚ) / (d : ℚ)) := by
  refine ⟨sticky_ratio b neg n d, ?_, ?_⟩
  · rintro bs q ⟨rfl, hd, rfl⟩ rest buf
    exact ⟨buf, by unfold ratio; rw [if_neg hd]; rfl⟩
  · intro bs buf q st' e
    unfold ratio at e
    by_cases hd : d = 0
    · rw [if_pos hd] at e; cases b <;> cases e
    · rw [if_neg hd] at e; cases e
      exact .inr ⟨[], bs, buf, rfl, ⟨rfl, hd, rfl⟩, rfl⟩

theorem exact_rat (h : Host) (b : Backend) : Exact (rRat h b) IsRational := by
  rw [rRat_eq]
  refine ((exact_bool h).bind fun neg => (exact_natural h).bind fun n => (exact_natural h).bind fun d => exact_ratio b neg n d).congr fun bs q => ⟨?_, ?_⟩
  · rintro ⟨xs, ys, neg, rfl, ⟨s, rfl, rfl⟩, ns, zs, n, rfl, hn, ds, ws, d, rfl, hd, rfl, h0, rfl⟩
    refine ⟨s, ns, ds, n, d, by simp, hn, hd, h0, ?_⟩
    by_cases hs : s = 0 <;> simp [hs]
  · rintro ⟨s, ns, ds, n, d, rfl, hn, hd, h0, rfl⟩
    refine ⟨[s], ns ++ ds, _, rfl, ⟨s, rfl, rfl⟩, ns, ds, n, rfl, hn, ds, [], d, by simp, hd, rfl, h0, ?_⟩
    by_cases hs : s = 0 <;> simp [hs]

/-! ## Vertices -/

theorem exact_point (h : Host) (N : Numbers) : Exact (rVertex h N) (IsPoint N) := by
  rw [rVertex_eq]
  have hd : Exact (rDoubles h N) (fun bs p => ∃ xs ys zs x y z, bs = xs ++ (ys ++ zs) ∧ IsDouble xs x ∧ IsDouble ys y ∧ IsDouble zs z ∧ p = ⟨⟨N.val x, some x⟩, ⟨N.val y, some y⟩, ⟨N.val z, some z⟩⟩) := by
    refine ((exact_double h).bind fun x => (exact_double h).bind fun y => (exact_double h).bind fun z => exact_ret _).congr fun bs p => ⟨?_, ?_⟩
    · rintro ⟨xs, _, x, rfl, h1, ys, _, y, rfl, h2, zs, _, z, rfl, h3, rfl, rfl⟩; exact ⟨xs, ys, zs, x, y, z, by simp, h1, h2, h3, rfl⟩
    · rintro ⟨xs, ys, zs, x, y, z, rfl, h1, h2, h3, rfl⟩; exact ⟨xs, _, x, rfl, h1, ys, _, y, rfl, h2, zs, [], z, by simp, h3, rfl, rfl⟩
  have hr : Exact (rRats h N) (fun bs p => ∃ xs ys zs x y z, bs = xs ++ (ys ++ zs) ∧ IsRational xs x ∧ IsRational ys y ∧ IsRational zs z ∧ p = ⟨⟨x, N.approx x⟩, ⟨y, N.approx y⟩, ⟨z, N.approx z⟩⟩) := by
    refine ((exact_rat h _).bind fun x => (exact_rat h _).bind fun y => (exact_rat h _).bind fun z => exact_ret _).congr fun bs p => ⟨?_, ?_⟩
    · rintro ⟨xs, _, x, rfl, h1, ys, _, y, rfl, h2, zs, _, z, rfl, h3, rfl, rfl⟩; exact ⟨xs, ys, zs, x, y, z, by simp, h1, h2, h3, rfl⟩
    · rintro ⟨xs, ys, zs, x, y, z, rfl, h1, h2, h3, rfl⟩; exact ⟨xs, _, x, rfl, h1, ys, _, y, rfl, h2, zs, [], z, by simp, h3, rfl, rfl⟩
  have hb : ∀ b : Bool, Exact (if !b then rDoubles h N else rRats h N) (fun bs p => if b then (∃ xs ys zs x y z, bs = xs ++ (ys ++ zs) ∧ IsRational xs x ∧ IsRational ys y ∧ IsRational zs z ∧ p = ⟨⟨x, N.approx x⟩, ⟨y, N.approx y⟩, ⟨z, N.approx z⟩⟩)
      else (∃ xs ys zs x y z, bs = xs ++ (ys ++ zs) ∧ IsDouble xs x ∧ IsDouble ys y ∧ IsDouble zs z ∧ p = ⟨⟨N.val x, some x⟩, ⟨N.val y, some y⟩, ⟨N.val z, some z⟩⟩)) := by
    intro b
    cases b
    · exact hd
    · exact hr
  refine ((exact_bool h).bind hb).congr fun bs p => ⟨?_, ?_⟩
  · rintro ⟨ws, vs, b, rfl, ⟨s, rfl, rfl⟩, k⟩
    by_cases hs : s = 0
    · subst hs
      obtain ⟨xs, ys, zs, x, y, z, rfl, k⟩ := k
      exact .inl ⟨xs, ys, zs, x, y, z, rfl, k⟩
    · rw [if_pos (by simpa using hs)] at k
      obtain ⟨xs, ys, zs, x, y, z, rfl, k⟩ := k
      exact .inr ⟨s, xs, ys, zs, x, y, z, rfl, hs, k⟩
  · rintro (⟨xs, ys, zs, x, y, z, rfl, k⟩ | ⟨s, xs, ys, zs, x, y, z, rfl, hs, k⟩)
    · exact ⟨[0], _, false, rfl, ⟨0, rfl, by simp⟩, xs, ys, zs, x, y, z, rfl, k⟩
    · exact ⟨[s], _, true, rfl, ⟨s, rfl, by simpa using hs⟩, xs, ys, zs, x, y, z, rfl, k⟩

theorem exact_points (h : Host) (N : Numbers) (n : Nat) (t : Soup Pt D) :
    Exact (rVertices h N n t) (fun bs t' => ∃ ps, ps.length = n ∧ Row (IsPoint N) bs ps ∧ t' = ⟨t.points ++ ps, t.faces, t.data⟩) := by
  induction n generalizing t with
  | zero =>
    refine (exact_ret t).congr fun bs t' => ⟨?_, ?_⟩
    · rintro ⟨rfl, rfl⟩; exact ⟨[], rfl, .nil, by simp⟩
    · rintro ⟨ps, hl, k, rfl⟩
      cases List.length_eq_zero_iff.1 hl
      cases k; exact ⟨rfl, by simp⟩
  | succ n ih =>
    refine ((exact_point h N).bind fun p => ih (t.addVertex p).1).congr fun bs t' => ⟨?_, ?_⟩
    · rintro ⟨xs, ys, p, rfl, h1, ps, hl, h2, rfl⟩
      exact ⟨p :: ps, by simp [hl], .cons h1 h2, by simp [Soup.addVertex]⟩
    · rintro ⟨ps, hl, k, rfl⟩
      cases k with
      | nil => simp at hl
      | @cons xs ys p ps h1 h2 => exact ⟨xs, ys, p, rfl, h1, ps, by simpa using hl, h2, by simp [Soup.addVertex]⟩

/-! ## Faces -/

theorem exact_faces (h : Host) {C : Codec D} {E : Bytes → D → Prop} (hC : Exact C.dec E) (n : Nat) {t : Soup Pt D} (hl : t.data.length = t.faces.length) :
    Exact (rFaces h C n t) (fun bs t' => ∃ fs, fs.length = n ∧ Row (IsFace E) bs fs ∧ t' = ⟨t.points, t.faces ++ fs.map Prod.fst, t.data ++ fs.map Prod.snd⟩) := by
  induction n generalizing t with
  | zero =>
    refine (exact_ret t).congr fun bs t' => ⟨?_, ?_⟩
    · rintro ⟨rfl, rfl⟩; exact ⟨[], rfl, .nil, by simp⟩
    · rintro ⟨ps, hl, k, rfl⟩
      cases List.length_eq_zero_iff.1 hl
      cases k; exact ⟨rfl, by simp⟩
  | succ n ih =>
    rw [rFaces_succ]
    have hrest : ∀ (f : Tri Nat) (d : D), Exact (fun st => (appendFace C t f d).bind fun t => rFaces h C n t st)
        (fun bs t' => ∃ fs, fs.length = n ∧ Row (IsFace E) bs fs ∧ t' = ⟨t.points, t.faces ++ [f] ++ fs.map Prod.fst, t.data ++ [d] ++ fs.map Prod.snd⟩) := by
      intro f d
      rw [rest_ok h C n hl]
      exact ih (t := t.addFace f d) (by simp [Soup.addFace, hl])
    refine ((exact_size h).bind fun a => (exact_size h).bind fun b => (exact_size h).bind fun c => hC.bind fun d => hrest ⟨a, b, c⟩ d).congr fun bs t' => ⟨?_, ?_⟩
    · rintro ⟨as, _, a, rfl, ha, cs, _, b, rfl, hb, es, _, c, rfl, hc, ds, ys, d, rfl, hd, fs, hl, k, rfl⟩
      refine ⟨(⟨a, b, c⟩, d) :: fs, by simp [hl], ?_, by simp⟩
      have := Row.cons (R := IsFace E) (a := (⟨a, b, c⟩, d)) ⟨as, cs, es, ds, rfl, ha, hb, hc, hd⟩ k
      simpa only [List.append_assoc] using this
    · rintro ⟨fs, hl, k, rfl⟩
      cases k with
      | nil => simp at hl
      | @cons xs ys f fs h1 h2 =>
        obtain ⟨as, cs, es, ds, rfl, ha, hb, hc, hd⟩ := h1
        exact ⟨as, _, f.1.a, by simp only [List.append_assoc], ha, cs, _, f.1.b, rfl, hb, es, _, f.1.c, rfl, hc, ds, ys, f.2, rfl, hd, fs, by simpa using hl, h2, by simp⟩

/-! ## Regions -/

/-- The points, faces and data are appended to what was there. -/
def onto (t r : RawRegion D) : RawRegion D := ⟨r.kind, ⟨t.boundary.points ++ r.boundary.points, t.boundary.faces ++ r.boundary.faces, t.boundary.data ++ r.boundary.data⟩⟩

theorem exact_region (h : Host) (N : Numbers) {C : Codec D} {E : Bytes → D → Prop} (hC : Exact C.dec E) {t : RawRegion D} (hl : t.boundary.data.length = t.boundary.faces.length) :
    Exact (rRegion h N C t) (fun bs r' => ∃ r, IsRegion N E bs r ∧ r' = onto t r) := by
  have hrest : ∀ t1 : Soup Pt D, t1.data.length = t1.faces.length → ∀ nf, Exact (rFaces h C nf t1) _ := fun t1 h1 nf => exact_faces h hC nf h1
  have hsoup : Exact (rSoup h N C t.boundary) (fun bs t' => ∃ nv nf ps fs pts faces, bs = nv ++ (nf ++ (ps ++ fs)) ∧ IsCount nv pts.length ∧ IsCount nf faces.length ∧
      Row (IsPoint N) ps pts ∧ Row (IsFace E) fs faces ∧ t' = ⟨t.boundary.points ++ pts, t.boundary.faces ++ faces.map Prod.fst, t.boundary.data ++ faces.map Prod.snd⟩) := by
    have hvf : ∀ nv nf, Exact ((rVertices h N nv t.boundary).bind fun t => rFaces h C nf t) (fun bs t' => ∃ ps fs pts faces, bs = ps ++ fs ∧ pts.length = nv ∧ faces.length = nf ∧
        Row (IsPoint N) ps pts ∧ Row (IsFace E) fs faces ∧ t' = ⟨t.boundary.points ++ pts, t.boundary.faces ++ faces.map Prod.fst, t.boundary.data ++ faces.map Prod.snd⟩) := by
      intro nv nf
      have hv := exact_points (D := D) h N nv t.boundary
      refine ⟨hv.sticky.bind fun t => sticky_rest h C hC.sticky nf t, ?_, ?_⟩
      · rintro bs t' ⟨ps, fs, pts, faces, rfl, h1, h2, h3, h4, rfl⟩
        exact (hv.reads ps _ ⟨pts, h1, h3, rfl⟩).bind ((exact_faces h hC nf (by exact hl)).reads fs _ ⟨faces, h2, h4, rfl⟩)
      · intro bs buf t' st' e
        obtain ⟨t1, st1, e1, e2⟩ := bind_inv e
        rcases hv.only bs buf t1 st1 e1 with k | ⟨cs, rest, buf1, rfl, ⟨pts, k1, k2, rfl⟩, rfl⟩
        · exact .inl (sticky_rest h C hC.sticky nf t1 st1 t' st' k e2)
        · rcases (exact_faces h hC nf (by exact hl)).only rest buf1 t' st' e2 with k | ⟨ds, rest', buf2, rfl, ⟨faces, k3, k4, rfl⟩, rfl⟩
          · exact .inl k
          · exact .inr ⟨cs ++ ds, rest', buf2, by rw [List.append_assoc], ⟨cs, ds, pts, faces, rfl, k1, k3, k2, k4, rfl⟩, rfl⟩
    refine ((exact_size h).bind fun nv => (exact_size h).bind fun nf => hvf nv nf).congr fun bs t' => ⟨?_, ?_⟩
    · rintro ⟨nv, _, _, rfl, h1, nf, _, _, rfl, h2, ps, fs, pts, faces, rfl, rfl, rfl, k⟩
      exact ⟨nv, nf, ps, fs, pts, faces, rfl, h1, h2, k⟩
    · rintro ⟨nv, nf, ps, fs, pts, faces, rfl, h1, h2, k⟩
      exact ⟨nv, _, _, rfl, h1, nf, _, _, rfl, h2, ps, fs, pts, faces, rfl, rfl, rfl, k⟩
  refine ((exact_byte h).bind fun k => hsoup.map fun t => (⟨k.toNat, t⟩ : RawRegion D)).congr fun bs r' => ⟨?_, ?_⟩
  · rintro ⟨_, _, _, rfl, ⟨k, rfl, rfl⟩, _, ⟨nv, nf, ps, fs, pts, faces, rfl, h1, h2, h3, h4, rfl⟩, rfl⟩
    exact ⟨⟨k.val, ⟨pts, faces.map Prod.fst, faces.map Prod.snd⟩⟩, ⟨k, nv, nf, ps, fs, faces, rfl, rfl, h1, h2, h3, h4, rfl, rfl⟩, by simp [onto]⟩
  · rintro ⟨r, ⟨k, nv, nf, ps, fs, faces, rfl, hk, h1, h2, h3, h4, h5, h6⟩, rfl⟩
    exact ⟨[k], _, _, rfl, ⟨k, rfl, rfl⟩, _, ⟨nv, nf, ps, fs, r.boundary.points, faces, rfl, h1, h2, h3, h4, rfl⟩, by simp [onto, h5, h6, hk]⟩

theorem exact_null : Exact nullCodec.dec IsNothing := (exact_ret ()).congr fun bs a => ⟨fun h => h.1, fun h => ⟨h, rfl⟩⟩

theorem exact_int (h : Host) (t : IntTy) (ht : 0 < t.bytes) : Exact (intCodec h t).dec (IsInteger t.signed t.bytes) := by
  refine (exact_rInt h t t ht ht).congr fun bs v => ⟨?_, ?_⟩
  · rintro ⟨hl, hv, -⟩
    obtain ⟨h1, h2⟩ := (decode_iff ht hl v).1 hv
    exact ⟨hl, h1, h2⟩
  · rintro ⟨hl, h1, h2⟩
    exact ⟨hl, (decode_iff ht hl v).2 ⟨h1, h2⟩, .inl rfl⟩

end Kigumi.IO
