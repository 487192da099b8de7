import Verif.Proofs.PiecesComplex
import Verif.Props.FaceFace

/-! # The corners found by the intersection of two triangles are the extreme points of what the triangles have in common -/
namespace Kigumi.Cutting
open Kigumi Geo Spec.Triangles Spec.Side FaceFace Space
open Kigumi.Side (Aff plane Ok eval_seg in_iff sides ok_of_proper onSegment_self left_end right_end onSegment_swap in_a in_b in_c)

/-- One can move a little from a point of the relative interior of a simplex away from another one. -/
theorem open_extend {k0 k1 k2 : Bool} {a b c x y : P3} (hx : Open k0 k1 k2 a b c x) (hy : Open k0 k1 k2 a b c y) : ∃ ε > 0, ∀ e, 0 < e → e ≤ ε → InTriangle a b c (seg (1 + e) (-e) x y) := by
  obtain ⟨u, v, w, hs, rfl, hu, hv, hw⟩ := hx
  obtain ⟨u', v', w', hs', rfl, hu', hv', hw'⟩ := hy
  have nn : ∀ {k : Bool} {m : ℚ}, Weight k m → 0 ≤ m := by
    intro k m h
    cases k
    · exact le_of_eq (by simpa [Weight] using h.symm)
    · exact le_of_lt (by simpa [Weight] using h)
  have key : ∀ {k : Bool} {m n : ℚ}, Weight k m → Weight k n → n ≤ 1 → ∃ ε > 0, ∀ e, 0 < e → e ≤ ε → 0 ≤ (1 + e) * m + (-e) * n := by
    intro k m n hm hn n1
    cases k
    · simp only [Weight] at hm hn
      refine ⟨1, by norm_num, fun e _ _ => ?_⟩
      simp at hm hn
      rw [hm, hn]; simp
    · simp only [Weight, if_true] at hm hn
      refine ⟨m, hm, fun e e0 e1 => ?_⟩
      have h1 := mul_le_mul_of_nonneg_left n1 e0.le
      have h2 := mul_pos e0 hm
      linarith
  have u0 := nn hu'; have v0 := nn hv'; have w0 := nn hw'
  obtain ⟨e1, p1, q1⟩ := key hu hu' (by linarith)
  obtain ⟨e2, p2, q2⟩ := key hv hv' (by linarith)
  obtain ⟨e3, p3, q3⟩ := key hw hw' (by linarith)
  refine ⟨min e1 (min e2 e3), lt_min p1 (lt_min p2 p3), fun e e0 he => ?_⟩
  refine ⟨_, _, _, ?_, ?_, q1 e e0 (he.trans (min_le_left _ _)), q2 e e0 (he.trans ((min_le_right _ _).trans (min_le_left _ _))), q3 e e0 (he.trans ((min_le_right _ _).trans (min_le_right _ _)))⟩
  · linear_combination (1 + e) * hs - e * hs'
  · apply p3_ext <;> simp only [combo, seg] <;> ring

/-- The pattern of the positive weights of a point. -/
theorem in_open {a b c x : P3} (h : InTriangle a b c x) : ∃ k0 k1 k2, Open k0 k1 k2 a b c x := by
  obtain ⟨u, v, w, hs, e, hu, hv, hw⟩ := h
  have key : ∀ {m : ℚ}, 0 ≤ m → ∃ k, Weight k m := by
    intro m hm
    rcases lt_or_eq_of_le hm with h | h
    · exact ⟨true, by simpa [Weight] using h⟩
    · exact ⟨false, by simpa [Weight] using h.symm⟩
  obtain ⟨k0, h0⟩ := key hu
  obtain ⟨k1, h1⟩ := key hv
  obtain ⟨k2, h2⟩ := key hw
  exact ⟨k0, k1, k2, u, v, w, hs, e, h0, h1, h2⟩

theorem open_in {k0 k1 k2 : Bool} {a b c x : P3} (h : Open k0 k1 k2 a b c x) : InTriangle a b c x := by
  obtain ⟨u, v, w, hs, e, hu, hv, hw⟩ := h
  have nn : ∀ {k : Bool} {m : ℚ}, Weight k m → 0 ≤ m := by
    intro k m h
    cases k
    · exact le_of_eq (by simpa [Weight] using h.symm)
    · exact le_of_lt (by simpa [Weight] using h)
  exact ⟨u, v, w, hs, e, nn hu, nn hv, nn hw⟩

theorem open_mid {k0 k1 k2 : Bool} {t : Tri P3} (ht : Ok t) {x y z : P3} (hx : Open k0 k1 k2 t.a t.b t.c x) (hy : In t y) (hz : In t z) (hb : Btw x y z) : Open k0 k1 k2 t.a t.b t.c (seg (1 / 2) (1 / 2) x y) := by
  obtain ⟨u, v, w, hs, e, hu, hv, hw⟩ := hx
  obtain ⟨u', v', w', hs', rfl, u0, v0, w0, z1, z2, z3⟩ := btw_weights ht hy hz hb hs e
  subst e
  have key : ∀ {k : Bool} {m n : ℚ}, Weight k m → 0 ≤ n → (m = 0 → n = 0) → Weight k (1 / 2 * m + 1 / 2 * n) := by
    intro k m n hm hn hz
    cases k
    · simp only [Weight] at hm ⊢
      simp at hm
      simp [hm, hz hm]
    · simp only [Weight, if_true] at hm ⊢
      linarith
  refine ⟨_, _, _, ?_, ?_, key hu u0 z1, key hv v0 z2, key hw w0 z3⟩
  · linear_combination (1 / 2) * hs + (1 / 2) * hs'
  · apply p3_ext <;> simp only [combo, seg] <;> ring

theorem code_of_bits (k0 k1 k2 k3 k4 k5 : Bool) : ∃ code < 64, code.testBit 0 = k0 ∧ code.testBit 1 = k1 ∧ code.testBit 2 = k2 ∧ code.testBit 3 = k3 ∧ code.testBit 4 = k4 ∧ code.testBit 5 = k5 := by
  obtain ⟨h, h0, h1, h2, h3, h4, h5⟩ := code_bits (k0, k1, k2) (k3, k4, k5)
  exact ⟨_, h, h0, h1, h2, h3, h4, h5⟩

/-- **Corners are extreme points.** -/
theorem corner_iff {t u : Tri P3} (ht : Ok t) (hu : Ok u) {x : P3} : (∃ code < 64, IsCorner t.a t.b t.c u.a u.b u.c code x) ↔ Q t u x := by
  constructor
  · rintro ⟨code, -, ⟨h1, h2⟩, h3⟩
    refine ⟨⟨open_in h1, open_in h2⟩, fun y z hy hz hb => ?_⟩
    have e := h3 _ (open_mid ht h1 hy.1 hz.1 hb) (open_mid hu h2 hy.2 hz.2 hb)
    have e1 : (seg (1 / 2) (1 / 2) x y).x = x.x := by rw [e]
    have e2 : (seg (1 / 2) (1 / 2) x y).y = x.y := by rw [e]
    have e3 : (seg (1 / 2) (1 / 2) x y).z = x.z := by rw [e]
    simp only [seg] at e1 e2 e3
    apply p3_ext <;> linarith
  · rintro ⟨⟨h1, h2⟩, h3⟩
    obtain ⟨k0, k1, k2, o1⟩ := in_open h1
    obtain ⟨k3, k4, k5, o2⟩ := in_open h2
    obtain ⟨code, hc, b0, b1, b2, b3, b4, b5⟩ := code_of_bits k0 k1 k2 k3 k4 k5
    have r1 : ∀ y, Relint 0 code t.a t.b t.c y ↔ Open k0 k1 k2 t.a t.b t.c y := by intro y; unfold Relint; rw [b0, b1, b2]
    have r2 : ∀ y, Relint 3 code u.a u.b u.c y ↔ Open k3 k4 k5 u.a u.b u.c y := by intro y; unfold Relint; rw [b3, b4, b5]
    refine ⟨code, hc, ⟨(r1 x).2 o1, (r2 x).2 o2⟩, fun y hy hy' => ?_⟩
    rw [r1] at hy; rw [r2] at hy'
    obtain ⟨e1, p1, q1⟩ := open_extend o1 hy
    obtain ⟨e2, p2, q2⟩ := open_extend o2 hy'
    have p := lt_min p1 p2
    have i1 := q1 (min e1 e2) p (min_le_left _ _)
    have i2 := q2 (min e1 e2) p (min_le_right _ _)
    refine h3 y _ ⟨open_in hy, open_in hy'⟩ ⟨i1, i2⟩ ⟨min e1 e2 / (1 + min e1 e2), 1 / (1 + min e1 e2), ?_, div_pos p (by linarith), div_pos (by norm_num) (by linarith), ?_⟩
    · field_simp
      ring
    · have : (1 : ℚ) + min e1 e2 ≠ 0 := by linarith
      apply p3_ext <;> simp only [seg] <;> field_simp <;> ring

theorem weight_bit {k k' : Bool} {m : ℚ} (h : Weight k m) (h' : Weight k' m) : k = k' := by
  cases k <;> cases k' <;> simp [Weight] at h h' <;> first | rfl | linarith

theorem open_pattern {k0 k1 k2 k0' k1' k2' : Bool} {t : Tri P3} (ht : Ok t) {x : P3} (h : Open k0 k1 k2 t.a t.b t.c x) (h' : Open k0' k1' k2' t.a t.b t.c x) : k0 = k0' ∧ k1 = k1' ∧ k2 = k2' := by
  obtain ⟨u, v, w, hs, e, hu, hv, hw⟩ := h
  obtain ⟨u', v', w', hs', e', hu', hv', hw'⟩ := h'
  obtain ⟨rfl, rfl, rfl⟩ := weights_unique ht hs hs' (e.symm.trans e')
  exact ⟨weight_bit hu hu', weight_bit hv hv', weight_bit hw hw'⟩

/-- A point is a corner in one way only. -/
theorem corner_code {t u : Tri P3} (ht : Ok t) (hu : Ok u) {x : P3} {code code' : Nat} (hc : code < 64) (hc' : code' < 64) (h : IsCorner t.a t.b t.c u.a u.b u.c code x) (h' : IsCorner t.a t.b t.c u.a u.b u.c code' x) :
    code = code' := by
  obtain ⟨a0, a1, a2⟩ := open_pattern ht h.1.1 h'.1.1
  obtain ⟨a3, a4, a5⟩ := open_pattern hu h.1.2 h'.1.2
  apply Nat.eq_of_testBit_eq
  intro i
  by_cases hi : 6 ≤ i
  · have : 2 ^ 6 ≤ 2 ^ i := Nat.pow_le_pow_right (by norm_num) hi
    rw [Nat.testBit_lt_two_pow (by omega), Nat.testBit_lt_two_pow (by omega)]
  · have : i = 0 ∨ i = 1 ∨ i = 2 ∨ i = 3 ∨ i = 4 ∨ i = 5 := by omega
    rcases this with rfl | rfl | rfl | rfl | rfl | rfl <;> assumption

/-- `c` is followed by `d` in the cyclic order of the list. -/
def Next (xs : List P3) (c d : P3) : Prop := ∃ i : Nat, xs[i]? = some c ∧ xs[(i + 1) % xs.length]? = some d

/-- **The points of the corners**: they are the extreme points of what the triangles have in common, each of them is there once, and consecutive points are those that are to be joined. -/
theorem corners_points {pts : List P3} {ia ib ic ip iq ir : Nat} {t u : Tri P3} (T : Two pts ia ib ic ip iq ir t.a t.b t.c u.a u.b u.c) {l : List Nat} (hl : FaceFace.intersect pts ia ib ic ip iq ir = Outcome.ok l)
    {xs : List P3} (hlen : xs.length = l.length) (hx : ∀ (i : Nat) code x, l[i]? = some code → xs[i]? = some x → IsCorner t.a t.b t.c u.a u.b u.c code x) :
    (∀ x, x ∈ xs ↔ Q t u x) ∧ xs.Nodup ∧ ∀ c d, Joined t u c d ↔ 2 ≤ xs.length ∧ (Next xs c d ∨ Next xs d c) := by
  have ht : Ok t := normal_ne T.left
  have hu : Ok u := normal_ne T.right
  obtain ⟨l', e, hnd, hmem⟩ := C34_corners T
  rw [hl] at e; cases e
  obtain ⟨l', e, -, -, hcyc⟩ := C64_cyclic T
  rw [hl] at e; cases e
  have hget : ∀ {i : Nat} {x : P3}, xs[i]? = some x → ∃ code, l[i]? = some code ∧ code < 64 ∧ IsCorner t.a t.b t.c u.a u.b u.c code x := by
    intro i x h
    have hi : i < l.length := by rw [← hlen]; exact (List.getElem?_eq_some_iff.1 h).1
    have hc : l[i]? = some l[i] := List.getElem?_eq_getElem hi
    exact ⟨_, hc, ((hmem _).1 (List.mem_of_getElem? hc)).1, hx i _ x hc h⟩
  have hQ : ∀ x, x ∈ xs ↔ Q t u x := by
    intro x
    rw [← corner_iff ht hu]
    constructor
    · intro h
      obtain ⟨i, hi⟩ := List.mem_iff_getElem?.1 h
      obtain ⟨code, -, h1, h2⟩ := hget hi
      exact ⟨code, h1, h2⟩
    · rintro ⟨code, h1, h2⟩
      have hm := (hmem code).2 ⟨h1, x, h2.1, h2.2⟩
      obtain ⟨i, hi⟩ := List.mem_iff_getElem?.1 hm
      have hi' : i < xs.length := by rw [hlen]; exact (List.getElem?_eq_some_iff.1 hi).1
      have hxi : xs[i]? = some xs[i] := List.getElem?_eq_getElem hi'
      have := (hx i code _ hi hxi).2 x h2.1.1 h2.1.2
      rw [this]; exact List.getElem_mem hi'
  have inj : ∀ {i j : Nat} {x : P3}, xs[i]? = some x → xs[j]? = some x → i = j := by
    intro i j x h h'
    obtain ⟨code, a1, a2, a3⟩ := hget h
    obtain ⟨code', b1, b2, b3⟩ := hget h'
    have := corner_code ht hu a2 b2 a3 b3
    subst this
    obtain ⟨i1, e1⟩ := List.getElem?_eq_some_iff.1 a1
    obtain ⟨j1, e2⟩ := List.getElem?_eq_some_iff.1 b1
    exact (hnd.getElem_inj_iff).1 (e1.trans e2.symm)
  have hN : xs.Nodup := by
    rw [List.nodup_iff_getElem?_ne_getElem?]
    intro i j hij hj e
    have h1 : xs[i]? = some xs[i] := List.getElem?_eq_getElem (by omega)
    have := inj h1 (e ▸ h1)
    omega
  refine ⟨hQ, hN, fun c d => ?_⟩
  unfold Joined
  rw [q_iff, q_iff, ← hQ, ← hQ]
  constructor
  · rintro ⟨hc, hd, hne, hj⟩
    obtain ⟨i, hi⟩ := List.mem_iff_getElem?.1 hc
    obtain ⟨j, hj'⟩ := List.mem_iff_getElem?.1 hd
    have hij : i ≠ j := by rintro rfl; rw [hi] at hj'; exact hne (Option.some.inj hj')
    have li := (List.getElem?_eq_some_iff.1 hi).1
    have lj := (List.getElem?_eq_some_iff.1 hj').1
    refine ⟨by omega, ?_⟩
    have fin : j = (i + 1) % xs.length ∨ i = (j + 1) % xs.length := by
      by_cases h3 : 3 ≤ xs.length
      · have hj : SameEdge t.a t.b t.c c d ∨ SameEdge u.a u.b u.c c d := by
          rcases hj with h | h | h
          · exact Or.inl h
          · exact Or.inr h
          · exfalso
            have : ∃ k, k < xs.length ∧ k ≠ i ∧ k ≠ j := by
              by_cases h0 : i ≠ 0 ∧ j ≠ 0
              · exact ⟨0, by omega, by omega, by omega⟩
              · by_cases h1 : i ≠ 1 ∧ j ≠ 1
                · exact ⟨1, by omega, by omega, by omega⟩
                · exact ⟨2, by omega, by omega, by omega⟩
            obtain ⟨k, hk, ki, kj⟩ := this
            have hk' : xs[k]? = some xs[k] := List.getElem?_eq_getElem hk
            rcases h _ (q_iff.2 ((hQ _).1 (List.mem_of_getElem? hk'))) with e | e
            · exact ki (inj hk' (e ▸ hi))
            · exact kj (inj hk' (e ▸ hj'))
        obtain ⟨ci, a1, -, a3⟩ := hget hi
        obtain ⟨cj, b1, -, b3⟩ := hget hj'
        rw [hlen]
        exact (hcyc (by omega) i j ci cj c d hij a1 b1 a3 b3).1 hj
      · have : xs.length = 2 := by omega
        rw [this]
        omega
    rcases fin with e | e
    · exact Or.inl ⟨i, hi, e ▸ hj'⟩
    · exact Or.inr ⟨j, hj', e ▸ hi⟩
  · rintro ⟨h2, h⟩
    have sym : ∀ {c d : P3}, Next xs c d → c ∈ xs ∧ d ∈ xs ∧ c ≠ d ∧ (SameEdge t.a t.b t.c c d ∨ SameEdge u.a u.b u.c c d ∨ ∀ x, Spec.Side.Extreme (Common t u) x → x = c ∨ x = d) := by
      rintro c d ⟨i, hi, hj⟩
      have li := (List.getElem?_eq_some_iff.1 hi).1
      have hij : i ≠ (i + 1) % xs.length := by
        by_cases h : i + 1 < xs.length
        · rw [Nat.mod_eq_of_lt h]; omega
        · have : i + 1 = xs.length := by omega
          rw [this, Nat.mod_self]; omega
      refine ⟨List.mem_of_getElem? hi, List.mem_of_getElem? hj, fun e => hij (inj hi (e ▸ hj)), ?_⟩
      by_cases h3 : 3 ≤ xs.length
      · obtain ⟨ci, a1, -, a3⟩ := hget hi
        obtain ⟨cj, b1, -, b3⟩ := hget hj
        rcases (hcyc (by omega) i _ ci cj c d hij a1 b1 a3 b3).2 (Or.inl (by rw [hlen])) with h | h
        · exact Or.inl h
        · exact Or.inr (Or.inl h)
      · have l2 : xs.length = 2 := by omega
        refine Or.inr (Or.inr fun x hx => ?_)
        obtain ⟨k, hk⟩ := List.mem_iff_getElem?.1 ((hQ x).2 (q_iff.1 hx))
        have lk := (List.getElem?_eq_some_iff.1 hk).1
        rw [l2] at hj
        have : k = i ∨ k = (i + 1) % 2 := by omega
        rcases this with rfl | rfl
        · rw [hi] at hk; exact Or.inl (Option.some.inj hk).symm
        · rw [hj] at hk; exact Or.inr (Option.some.inj hk).symm
    rcases h with h | h
    · exact sym h
    · obtain ⟨h1, h2, h3, h4⟩ := sym h
      refine ⟨h2, h1, h3.symm, ?_⟩
      have se : ∀ {a b c x y : P3}, SameEdge a b c x y → SameEdge a b c y x := fun h => h.imp And.symm (Or.imp And.symm And.symm)
      exact h4.imp se (Or.imp se fun h x hx => (h x hx).symm)

end Kigumi.Cutting
