import Verif.Proofs.Tags
import Verif.Proofs.Faults
import Mathlib.Data.List.Sort

/-!
# Edges of solids are traversed equally often in both directions
-/
namespace Kigumi.Space
open Kigumi Spec.Triangles Spec.Side FaceFace Fan Spec.Defects
open Kigumi.Spec (Apex SameFace AngleAround)
open Kigumi.Geo (P3 dot cross sub)
variable {fs : List (Tri Nat)} {pts : Nat → P3} {owner : Nat → Bool} {χ : Bool → P3 → Prop}

/-- Two faces of an operand with no face of it between them traverse the edge in opposite directions. -/
theorem Around.alternate {p q : Nat} {u : P3} {e : ℚ} {as : Bool → List P3} (A : Around Whole fs pts owner χ p q u e as) {i j : Nat} {f g : Tri Nat} {r r' : Nat} (hf : fs[i]? = some f)
    (hg : fs[j]? = some g) (ho : owner i = owner j) {θ θ' τ0 : ℝ} (hθ : AngleAround (pts p) (pts q) u (pts r) θ) (hθ' : AngleAround (pts p) (pts q) u (pts r') θ') (h0 : τ0 = θ' ∨ τ0 = θ' + 2 * Real.pi) (hlt : θ < τ0)
    (hfree : ∀ (k : Nat) (h : Tri Nat) (r'' : Nat) τ, fs[k]? = some h → Apex p q h r'' → Dir (ex u) (ey (pts p) (pts q) u) (sub (pts r'') (pts p)) τ → ¬ (θ < τ ∧ τ < τ0))
    (hs : (SameFace ⟨p, q, r⟩ f ∧ SameFace ⟨p, q, r'⟩ g) ∨ (SameFace ⟨q, p, r⟩ f ∧ SameFace ⟨q, p, r'⟩ g)) : False := by
  have hpi := Real.pi_pos
  have ha : Apex p q f r := by rcases hs with ⟨h, -⟩ | ⟨h, -⟩; exacts [Or.inl h, Or.inr h]
  have ha' : Apex p q g r' := by rcases hs with ⟨-, h⟩ | ⟨-, h⟩; exacts [Or.inl h, Or.inr h]
  obtain ⟨ε1, e1, c1⟩ := A.cross trivial hf ha hθ
  obtain ⟨ε2, e2, c2⟩ := A.cross trivial hg ha' hθ'
  obtain ⟨k1, hk1, d1⟩ := Radial.dirDot_sin A.ne A.perp A.base hθ
  obtain ⟨k2, hk2, d2⟩ := Radial.dirDot_sin A.ne A.perp A.base hθ'
  obtain ⟨δ, δ0, δ1, δ2, δ3, δ4⟩ : ∃ δ : ℝ, 0 < δ ∧ δ < ε1 ∧ δ < ε2 ∧ δ < (τ0 - θ) / 2 ∧ δ < Real.pi := by
    have h0 : 0 < min (min ε1 ε2) (min ((τ0 - θ) / 2) Real.pi) := lt_min (lt_min e1 e2) (lt_min (by linarith) hpi)
    have h1 := min_le_left (min ε1 ε2) (min ((τ0 - θ) / 2) Real.pi)
    have h2 := min_le_right (min ε1 ε2) (min ((τ0 - θ) / 2) Real.pi)
    have h3 := min_le_left ε1 ε2
    have h4 := min_le_right ε1 ε2
    have h5 := min_le_left ((τ0 - θ) / 2) Real.pi
    have h6 := min_le_right ((τ0 - θ) / 2) Real.pi
    exact ⟨min (min ε1 ε2) (min ((τ0 - θ) / 2) Real.pi) / 2, by linarith, by linarith, by linarith, by linarith, by linarith⟩
  have hc1 := c1 (θ + δ) (by rw [show θ + δ - θ = δ by ring, abs_of_pos δ0]; exact δ1)
  have hc2 := c2 (θ' - δ) (by rw [show θ' - δ - θ' = -δ by ring, abs_neg, abs_of_pos δ0]; exact δ2)
  have same : A.inn (owner i) (θ + δ) = A.inn (owner i) (θ' - δ) := by
    rw [Bool.eq_iff_iff, Around.inn_iff, Around.inn_iff]
    have k : inside (ex u) (ey (pts p) (pts q) u) (χ (owner i)) (mid (pts p) (pts q)) e (as (owner i)) (τ0 - δ) ↔ inside (ex u) (ey (pts p) (pts q) u) (χ (owner i)) (mid (pts p) (pts q)) e (as (owner i)) (θ' - δ) := by
      rcases h0 with rfl | rfl
      · exact Iff.rfl
      · rw [show θ' + 2 * Real.pi - δ = θ' - δ + 2 * Real.pi by ring]
        exact inside_periodic _
    rw [← k]
    refine (A.pencil trivial (owner i)).inside_const (by linarith) ?_
    intro a hav τ hτ ⟨t1, t2⟩
    obtain ⟨k, h, r'', hh, -, hap, rfl⟩ := (A.vecs _ a).1 hav
    exact hfree k h r'' τ hh hap hτ ⟨by linarith, by linarith⟩
  have s1 : 0 < k1 * Real.sin (θ + δ - θ) := mul_pos hk1 (Real.sin_pos_of_pos_of_lt_pi (by linarith) (by linarith))
  have s2 : k2 * Real.sin (θ' - δ - θ') < 0 := mul_neg_of_pos_of_neg hk2 (Real.sin_neg_of_neg_of_neg_pi_lt (by linarith) (by linarith))
  rw [← ho] at hc2
  rcases hs with ⟨h1, h2⟩ | ⟨h1, h2⟩
  · rw [Radial.normal_same (pts := pts) h1, d1] at hc1
    rw [Radial.normal_same (pts := pts) h2, d2] at hc2
    have := hc1.1 s1
    rw [same, hc2.2 s2] at this
    cases this
  · rw [Radial.normal_same (pts := pts) h1, Radial.normal_swap, Radial.dirDot_neg, d1] at hc1
    rw [Radial.normal_same (pts := pts) h2, Radial.normal_swap, Radial.dirDot_neg, d2] at hc2
    have := hc1.2 (by linarith)
    rw [same, hc2.1 (by linarith)] at this
    cases this

/-- If signs alternate along a list, also from the last element to the first, there are as many of each. -/
theorem alternating_count {α : Type} (s : α → Bool) : ∀ (l : List α), l.IsChain (fun a b => s a ≠ s b) → (∀ a z, l.head? = some a → l.getLast? = some z → s z ≠ s a) → l.countP s = l.countP fun a => !s a
  | [], _, _ => rfl
  | [a], _, h => absurd rfl (h a a rfl rfl)
  | a :: b :: [], hc, _ => by
    have hab : s a ≠ s b := by simpa using hc
    revert hab
    cases h1 : s a <;> cases h2 : s b <;> simp [List.countP_cons, h1, h2]
  | a :: b :: c :: l, hc, h => by
    rw [List.isChain_cons_cons, List.isChain_cons_cons] at hc
    obtain ⟨h1, h2, h3⟩ := hc
    have hac : s c = s a := by
      revert h1 h2
      cases s a <;> cases s b <;> cases s c <;> simp
    have ih := alternating_count s (c :: l) h3 (fun x z hx hz => by
      obtain rfl := Option.some.inj hx
      have := h a z rfl (by rw [List.getLast?_cons_cons, List.getLast?_cons_cons]; exact hz)
      rw [hac]
      exact this)
    rw [List.countP_cons, List.countP_cons, List.countP_cons (l := b :: c :: l), List.countP_cons (l := c :: l) (a := b) (p := fun a => !s a), ih]
    revert h1
    cases s a <;> cases s b <;> simp

theorem mem_sides {V : Type} {f : Tri V} {p q : V} : (p, q) ∈ sides f ↔ ∃ r, SameFace ⟨p, q, r⟩ f := by
  obtain ⟨a, b, c⟩ := f
  simp only [sides, List.mem_cons, List.not_mem_nil, or_false, Prod.mk.injEq, SameFace, Tri.rot, Tri.mk.injEq]
  constructor
  · rintro (⟨rfl, rfl⟩ | ⟨rfl, rfl⟩ | ⟨rfl, rfl⟩)
    · exact ⟨c, Or.inl ⟨rfl, rfl, rfl⟩⟩
    · exact ⟨a, Or.inr (Or.inr ⟨rfl, rfl, rfl⟩)⟩
    · exact ⟨b, Or.inr (Or.inl ⟨rfl, rfl, rfl⟩)⟩
  · rintro ⟨r, ⟨rfl, rfl, rfl⟩ | ⟨rfl, rfl, rfl⟩ | ⟨rfl, rfl, rfl⟩⟩ <;> simp

theorem sides_nodup {V : Type} {f : Tri V} (h : Proper3 f) : (sides f).Nodup := by
  obtain ⟨h1, h2, h3⟩ := h
  simp [sides, h1, h2, h3, Ne.symm h3]

/-- If all faces have three different vertices, uses of a side are faces with it. -/
theorem uses_countP {V : Type} [DecidableEq V] {fs : List (Tri V)} (h : ∀ f ∈ fs, Proper3 f) (p q : V) : uses fs p q = fs.countP fun f => decide ((p, q) ∈ sides f) := by
  unfold uses
  rw [List.filter_eq_self.2 (fun f hf => by simpa using h f hf)]
  induction fs with
  | nil => rfl
  | cons f fs ih =>
    rw [List.flatMap_cons, List.count_append, List.countP_cons, ih fun g hg => h g (List.mem_cons_of_mem _ hg), Nat.add_comm]
    congr 1
    by_cases hm : (p, q) ∈ sides f
    · rw [if_pos (by simpa using hm)]
      exact List.count_eq_one_of_mem (sides_nodup (h f List.mem_cons_self)) hm
    · rw [if_neg (by simpa using hm)]
      exact List.count_eq_zero.2 hm

/-- **Around every edge of a solid, as many faces traverse it in the one as in the other direction.** -/
theorem Scene.balanced (S : Scene Whole fs pts owner χ) (hone : ∀ i j, owner i = owner j) {p q : Nat} (hpq : p ≠ q) : uses fs p q = uses fs q p := by
  classical
  have hprop : ∀ f ∈ fs, Proper3 f := fun f hf => S.distinct hf
  rw [uses_countP hprop, uses_countP hprop]
  by_cases hex : ∃ f ∈ fs, ∃ r, Apex p q f r
  · obtain ⟨u, e, as, A⟩ := S.edge_around hex
    have hpi := Real.pi_pos
    let has : Tri Nat × Nat → Bool := fun x => decide ((p, q) ∈ sides x.1 ∨ (q, p) ∈ sides x.1)
    have angle : ∀ x : Tri Nat × Nat, ∃ θ : ℝ, x ∈ fs.zipIdx → has x = true → ∃ r, Apex p q x.1 r ∧ AngleAround (pts p) (pts q) u (pts r) θ := by
      intro x
      by_cases hx : x ∈ fs.zipIdx ∧ has x = true
      · obtain ⟨h1, h2⟩ := hx
        have h3 : ∃ r, Apex p q x.1 r := by
          rcases of_decide_eq_true h2 with h | h
          · obtain ⟨r, h⟩ := mem_sides.1 h; exact ⟨r, Or.inl h⟩
          · obtain ⟨r, h⟩ := mem_sides.1 h; exact ⟨r, Or.inr h⟩
        obtain ⟨r, hr⟩ := h3
        obtain ⟨θ, hθ⟩ := A.angle (List.mem_of_getElem? (List.mem_zipIdx_iff_getElem?.1 h1)) hr
        exact ⟨θ, fun _ _ => ⟨r, hr, hθ⟩⟩
      · exact ⟨0, fun h1 h2 => absurd ⟨h1, h2⟩ hx⟩
    choose ang hang using angle
    let l0 := fs.zipIdx.filter has
    let l := l0.insertionSort fun x y => ang x ≤ ang y
    have hperm : l.Perm l0 := List.perm_insertionSort _ _
    have hmem : ∀ x, x ∈ l ↔ fs[x.2]? = some x.1 ∧ has x = true := fun x => by
      rw [hperm.mem_iff, List.mem_filter, ← List.mem_zipIdx_iff_getElem?]
    have get : ∀ x ∈ l, ∃ r, Apex p q x.1 r ∧ AngleAround (pts p) (pts q) u (pts r) (ang x) := fun x hx => by
      obtain ⟨h1, h2⟩ := (hmem x).1 hx
      exact hang x (List.mem_zipIdx_iff_getElem?.2 h1) h2
    have hnd : l.Nodup := hperm.nodup_iff.2 (List.Nodup.filter _ (List.Nodup.of_map Prod.snd (by rw [List.zipIdx_map_snd]; exact List.nodup_range')))
    have hinj : ∀ x ∈ l, ∀ y ∈ l, ang x = ang y → x = y := by
      intro x hx y hy hxy
      obtain ⟨r, h1, h2⟩ := get x hx
      obtain ⟨r', h1', h2'⟩ := get y hy
      have fx := ((hmem x).1 hx).1
      have fy := ((hmem y).1 hy).1
      have hd := A.dir (List.mem_of_getElem? fx) h1 h2
      have hd' := A.dir (List.mem_of_getElem? fy) h1' h2'
      rw [← hxy] at hd'
      have := S.once _ _ _ _ fx fy (hone _ _) (A.coincide fx fy h1 h1' hd hd').1
      rw [this, fy] at fx
      exact Prod.ext (Option.some.inj fx).symm this
    have hsort : l.Pairwise fun x y => ang x < ang y := by
      have h1 : l.Pairwise fun x y => ang x ≤ ang y := List.pairwise_insertionSort _ _
      refine (List.pairwise_iff_getElem).2 fun i j hi hj hij => ?_
      refine lt_of_le_of_ne (List.pairwise_iff_getElem.1 h1 i j hi hj hij) fun h => ?_
      have := (List.Nodup.getElem_inj_iff hnd).1 (hinj _ (List.getElem_mem hi) _ (List.getElem_mem hj) h)
      omega
    have hlt := List.pairwise_iff_getElem.1 hsort
    let s : Tri Nat × Nat → Bool := fun x => decide ((p, q) ∈ sides x.1)
    have sign : ∀ x ∈ l, ∀ r, Apex p q x.1 r → (s x = true → SameFace ⟨p, q, r⟩ x.1) ∧ (s x = false → SameFace ⟨q, p, r⟩ x.1) := by
      intro x hx r hr
      have hxd := S.distinct (List.mem_of_getElem? ((hmem x).1 hx).1)
      refine ⟨fun h => ?_, fun h => ?_⟩
      · obtain ⟨r', h'⟩ := mem_sides.1 (of_decide_eq_true h)
        rw [Radial.apex_unique hpq hxd hr (Or.inl h')]
        exact h'
      · rcases hr with hr | hr
        · exact absurd (mem_sides.2 ⟨r, hr⟩) (of_decide_eq_false h)
        · exact hr
    have other : ∀ x ∈ l, (!s x) = decide ((q, p) ∈ sides x.1) := by
      intro x hx
      obtain ⟨r, hr, -⟩ := get x hx
      have hxd := S.distinct (List.mem_of_getElem? ((hmem x).1 hx).1)
      rw [Bool.eq_iff_iff]
      simp only [Bool.not_eq_true', decide_eq_true_eq]
      refine ⟨fun h => mem_sides.2 ⟨r, (sign x hx r hr).2 h⟩, fun h => ?_⟩
      obtain ⟨r', h'⟩ := mem_sides.1 h
      rw [← Bool.not_eq_true]
      intro hc
      have := ccw_unique (p := p) (q := q) (b := true) (b' := false) hpq hxd ⟨r, (sign x hx r hr).1 hc⟩ ⟨r', h'⟩
      cases this
    have step : ∀ x ∈ l, ∀ y ∈ l, ∀ τ0, (τ0 = ang y ∨ τ0 = ang y + 2 * Real.pi) → ang x < τ0 → (∀ z ∈ l, ∀ n : ℤ, ¬ (ang x < ang z + 2 * Real.pi * n ∧ ang z + 2 * Real.pi * n < τ0)) → s x ≠ s y := by
      intro x hx y hy τ0 hτ hxτ hfree hs
      obtain ⟨r, h1, h2⟩ := get x hx
      obtain ⟨r', h1', h2'⟩ := get y hy
      refine A.alternate ((hmem x).1 hx).1 ((hmem y).1 hy).1 (hone _ _) h2 h2' hτ hxτ (fun k h r'' τ hk hap hd => ?_) ?_
      · have hz : (h, k) ∈ l := by
          refine (hmem _).2 ⟨hk, decide_eq_true ?_⟩
          rcases hap with h | h
          · exact Or.inl (mem_sides.2 ⟨_, h⟩)
          · exact Or.inr (mem_sides.2 ⟨_, h⟩)
        obtain ⟨r3, h3, h4⟩ := get _ hz
        have : r3 = r'' := Radial.apex_unique hpq (S.distinct (List.mem_of_getElem? hk)) h3 hap
        subst this
        obtain ⟨n, hn⟩ := dir_same (A.dir (List.mem_of_getElem? hk) h3 h4) hd
        rw [hn]
        exact hfree _ hz n
      · cases hc : s x
        · exact Or.inr ⟨(sign x hx r h1).2 hc, (sign y hy r' h1').2 (by rw [← hs, hc])⟩
        · exact Or.inl ⟨(sign x hx r h1).1 hc, (sign y hy r' h1').1 (by rw [← hs, hc])⟩
    have range : ∀ x ∈ l, 0 ≤ ang x ∧ ang x < 2 * Real.pi := fun x hx => by
      obtain ⟨r, -, h2⟩ := get x hx
      exact ⟨h2.1, h2.2.1⟩
    have big : ∀ n : ℤ, 1 ≤ n → (1 : ℝ) ≤ n := fun n h => by exact_mod_cast h
    have small : ∀ n : ℤ, n ≤ -1 → (n : ℝ) ≤ -1 := fun n h => by exact_mod_cast h
    have chain : l.IsChain fun x y => s x ≠ s y := by
      rw [List.isChain_iff_getElem]
      intro i hi
      refine step _ (List.getElem_mem _) _ (List.getElem_mem _) _ (Or.inl rfl) (hlt i (i + 1) (by omega) hi (by omega)) fun z hz n => ?_
      rintro ⟨h1, h2⟩
      have r1 := range _ (List.getElem_mem (show i < l.length by omega))
      have r2 := range _ (List.getElem_mem hi)
      have r3 := range z hz
      have hn : n = 0 := by
        rcases lt_trichotomy n 0 with h | h | h
        · have := mul_le_mul_of_nonneg_left (small n (by omega)) (show 0 ≤ 2 * Real.pi by linarith)
          exfalso; linarith
        · exact h
        · have := mul_le_mul_of_nonneg_left (big n (by omega)) (show 0 ≤ 2 * Real.pi by linarith)
          exfalso; linarith
      rw [hn] at h1 h2
      simp only [Int.cast_zero, mul_zero, add_zero] at h1 h2
      obtain ⟨m, hm, rfl⟩ := List.getElem_of_mem hz
      rcases Nat.lt_or_ge i m with him | him
      · rcases Nat.lt_or_ge (i + 1) m with h | h
        · have := hlt (i + 1) m hi hm h; linarith
        · obtain rfl : m = i + 1 := by omega
          linarith
      · rcases Nat.lt_or_ge m i with h | h
        · have := hlt m i hm (by omega) h; linarith
        · obtain rfl : m = i := by omega
          linarith
    have wrap : ∀ a z, l.head? = some a → l.getLast? = some z → s z ≠ s a := by
      intro a z ha hz
      have ham := List.mem_of_head? ha
      have hzm := List.mem_of_getLast? hz
      have first : ∀ y ∈ l, ang a ≤ ang y := by
        intro y hy
        obtain ⟨m, hm, rfl⟩ := List.getElem_of_mem hy
        rw [List.head?_eq_getElem?] at ha
        obtain ⟨h0, rfl⟩ := List.getElem?_eq_some_iff.1 ha
        rcases Nat.eq_zero_or_pos m with rfl | h
        · exact le_refl _
        · exact (hlt 0 m h0 hm h).le
      have last : ∀ y ∈ l, ang y ≤ ang z := by
        intro y hy
        obtain ⟨m, hm, rfl⟩ := List.getElem_of_mem hy
        rw [List.getLast?_eq_getElem?] at hz
        obtain ⟨h0, rfl⟩ := List.getElem?_eq_some_iff.1 hz
        rcases Nat.lt_or_ge m (l.length - 1) with h | h
        · exact (hlt m _ hm h0 h).le
        · obtain rfl : m = l.length - 1 := by omega
          exact le_refl _
      have ra := range a ham
      have rz := range z hzm
      refine step z hzm a ham _ (Or.inr rfl) (by linarith) fun y hy n => ?_
      rintro ⟨h1, h2⟩
      have f1 := first y hy
      have l1 := last y hy
      rcases lt_trichotomy n 0 with h | h | h
      · have := mul_le_mul_of_nonneg_left (small n (by omega)) (show 0 ≤ 2 * Real.pi by linarith)
        linarith
      · subst h
        simp only [Int.cast_zero, mul_zero, add_zero] at h1
        linarith
      · have := mul_le_mul_of_nonneg_left (big n (by omega)) (show 0 ≤ 2 * Real.pi by linarith)
        linarith
    have hc := alternating_count s l chain wrap
    rw [hperm.countP_eq, hperm.countP_eq, List.countP_filter, List.countP_filter] at hc
    have conv : ∀ P : Tri Nat → Bool, fs.countP P = fs.zipIdx.countP fun x => P x.1 := by
      intro P
      conv_lhs => rw [← List.zipIdx_map_fst 0 fs]
      rw [List.countP_map]; rfl
    rw [conv, conv]
    refine Eq.trans ?_ (hc.trans ?_)
    · refine List.countP_congr fun x _ => ?_
      simp only [s, has, Bool.and_eq_true, decide_eq_true_eq]
      exact ⟨fun h => ⟨h, Or.inl h⟩, fun h => h.1⟩
    · refine List.countP_congr fun x hx => ?_
      rw [Bool.and_eq_true]
      constructor
      · rintro ⟨h1, h2⟩
        have := other x ((hmem x).2 ⟨List.mem_zipIdx_iff_getElem?.1 hx, h2⟩)
        rw [← this]; exact h1
      · intro h
        have hh : has x = true := decide_eq_true (Or.inr (of_decide_eq_true h))
        exact ⟨by rw [other x ((hmem x).2 ⟨List.mem_zipIdx_iff_getElem?.1 hx, hh⟩)]; exact h, hh⟩
  · have none : ∀ v w, (v = p ∧ w = q) ∨ (v = q ∧ w = p) → fs.countP (fun f => decide ((v, w) ∈ sides f)) = 0 := by
      intro v w hvw
      rw [List.countP_eq_zero]
      intro f hf h
      obtain ⟨r, h⟩ := mem_sides.1 (of_decide_eq_true h)
      apply hex
      rcases hvw with ⟨rfl, rfl⟩ | ⟨rfl, rfl⟩
      · exact ⟨f, hf, r, Or.inl h⟩
      · exact ⟨f, hf, r, Or.inr h⟩
    rw [none p q (Or.inl ⟨rfl, rfl⟩), none q p (Or.inr ⟨rfl, rfl⟩)]

end Kigumi.Space
