import Verif.Proofs.PlaneDelaunay

/-!
# Constrained Delaunay triangulations in a plane: the triangles form a triangulation
-/
namespace Kigumi.Plane

variable {V : Finset P2} {S : P2 → P2 → Prop} {F : Form} {h1 : P2 → ℚ}

/-- In a triangle. -/
structure Cl (a b c y : P2) : Prop where
  ab : 0 ≤ D a b y
  bc : 0 ≤ D b c y
  ca : 0 ≤ D c a y

theorem Inn.cl {a b c y : P2} (h : Inn a b c y) : Cl a b c y := ⟨h.ab.le, h.bc.le, h.ca.le⟩
theorem Cl.cyc {a b c y : P2} (h : Cl a b c y) : Cl b c a y := ⟨h.bc, h.ca, h.ab⟩

theorem Good.cyc {a b c : P2} (h : Good V S F h1 a b c) : Good V S F h1 b c a where
  ha := h.hb
  hb := h.hc
  hc := h.ha
  pos := by rw [← D_cyc]; exact h.pos
  empty x hx := h.empty x hx.cyc.cyc
  low y hy d hd vd := by rw [E_cyc _ a b c, E_cyc _ a b c]; exact h.low y hy.cyc.cyc d hd vd

/-! ## Small steps -/

theorem small1 {f g : ℚ} (hf : 0 < f) : ∃ e, 0 < e ∧ e ≤ 1 ∧ ∀ t, 0 < t → t ≤ e → 0 < (1 - t) * f + t * g := by
  have hp : 0 < f + |g| := by have := abs_nonneg g; linarith
  refine ⟨f / (2 * (f + |g|)), by positivity, ?_, fun t t0 t1 => ?_⟩
  · rw [div_le_one (by positivity)]
    have := abs_nonneg g
    linarith
  · rw [le_div_iff₀ (by positivity)] at t1
    have : -|g| ≤ g := neg_abs_le g
    nlinarith

theorem small {ι : Type} (T : Finset ι) (f g : ι → ℚ) (hf : ∀ i ∈ T, 0 < f i) : ∃ e, 0 < e ∧ e ≤ 1 ∧ ∀ t, 0 < t → t ≤ e → ∀ i ∈ T, 0 < (1 - t) * f i + t * g i := by
  classical
  induction T using Finset.induction_on with
  | empty => exact ⟨1, one_pos, le_refl _, by simp⟩
  | insert i T _ ih =>
    obtain ⟨e, e0, e1, h⟩ := ih fun j hj => hf j (Finset.mem_insert_of_mem hj)
    obtain ⟨e', e0', -, h'⟩ := small1 (g := g i) (hf i (Finset.mem_insert_self i T))
    refine ⟨min e e', lt_min e0 e0', (min_le_left _ _).trans e1, fun t t0 t1 j hj => ?_⟩
    rcases Finset.mem_insert.1 hj with rfl | hj
    · exact h' t t0 (t1.trans (min_le_right _ _))
    · exact h t t0 (t1.trans (min_le_left _ _)) j hj

theorem small_ne {ι : Type} (T : Finset ι) (f g : ι → ℚ) (hf : ∀ i ∈ T, f i ≠ 0 ∨ g i ≠ 0) : ∃ e, 0 < e ∧ e ≤ 1 ∧ ∀ t, 0 < t → t ≤ e → ∀ i ∈ T, (1 - t) * f i + t * g i ≠ 0 := by
  classical
  obtain ⟨e, e0, e1, h⟩ := small (T.filter fun i => 0 < f i) f g fun i hi => (Finset.mem_filter.1 hi).2
  obtain ⟨e', e0', e1', h'⟩ := small (T.filter fun i => f i < 0) (fun i => -f i) (fun i => -g i) fun i hi => neg_pos.2 (Finset.mem_filter.1 hi).2
  refine ⟨min e e', lt_min e0 e0', (min_le_left _ _).trans e1, fun t t0 t1 i hi => ?_⟩
  rcases lt_trichotomy (f i) 0 with k | k | k
  · have := h' t t0 (t1.trans (min_le_right _ _)) i (Finset.mem_filter.2 ⟨hi, k⟩)
    intro hn
    linarith
  · rw [k, mul_zero, zero_add]
    exact mul_ne_zero t0.ne' ((hf i hi).resolve_left (fun h => h k))
  · exact (h t t0 (t1.trans (min_le_left _ _)) i (Finset.mem_filter.2 ⟨hi, k⟩)).ne'

/-- Steps from a triangle to a point. -/
theorem step {a b c d e f x g : P2} (h1 : 0 < D a b x ∨ 0 ≤ D a b x ∧ 0 < D a b g) (h2 : 0 < D b c x ∨ 0 ≤ D b c x ∧ 0 < D b c g) (h3 : 0 < D c a x ∨ 0 ≤ D c a x ∧ 0 < D c a g)
    (h4 : 0 < D d e x ∨ 0 ≤ D d e x ∧ 0 < D d e g) (h5 : 0 < D e f x ∨ 0 ≤ D e f x ∧ 0 < D e f g) (h6 : 0 < D f d x ∨ 0 ≤ D f d x ∧ 0 < D f d g) :
    ∃ t, 0 < t ∧ t ≤ 1 ∧ Inn a b c (at' x g t) ∧ Inn d e f (at' x g t) := by
  have one : ∀ {p q : ℚ}, (0 < p ∨ 0 ≤ p ∧ 0 < q) → ∃ e, 0 < e ∧ e ≤ 1 ∧ ∀ t, 0 < t → t ≤ e → 0 < (1 - t) * p + t * q := by
    rintro p q (h | ⟨h, k⟩)
    · exact small1 h
    · exact ⟨1, one_pos, le_refl _, fun t t0 t1 => by nlinarith [mul_nonneg (sub_nonneg.2 t1) h, mul_pos t0 k]⟩
  obtain ⟨e1, p1, l1, k1⟩ := one h1
  obtain ⟨e2, p2, -, k2⟩ := one h2
  obtain ⟨e3, p3, -, k3⟩ := one h3
  obtain ⟨e4, p4, -, k4⟩ := one h4
  obtain ⟨e5, p5, -, k5⟩ := one h5
  obtain ⟨e6, p6, -, k6⟩ := one h6
  obtain ⟨t, t0, t1, t2, t3, t4, t5, t6⟩ : ∃ t, 0 < t ∧ t ≤ e1 ∧ t ≤ e2 ∧ t ≤ e3 ∧ t ≤ e4 ∧ t ≤ e5 ∧ t ≤ e6 :=
    ⟨min e1 (min e2 (min e3 (min e4 (min e5 e6)))), by simp only [lt_min_iff]; exact ⟨p1, p2, p3, p4, p5, p6⟩, by simp, by simp, by simp, by simp, by simp, by simp⟩
  refine ⟨t, t0, t1.trans l1, ⟨?_, ?_, ?_⟩, ⟨?_, ?_, ?_⟩⟩ <;> rw [D_at]
  exacts [k1 t t0 t1, k2 t t0 t2, k3 t t0 t3, k4 t t0 t4, k5 t t0 t5, k6 t t0 t6]

/-! ## Vertices of the triangles -/

def mid (a b c : P2) : P2 := ⟨(a.x + b.x + c.x) / 3, (a.y + b.y + c.y) / 3⟩

theorem mid_inn {a b c : P2} (h : 0 < D a b c) : Inn a b c (mid a b c) := by
  have e1 : D a b (mid a b c) = D a b c / 3 := by simp only [D, mid]; ring
  have e2 : D b c (mid a b c) = D a b c / 3 := by simp only [D, mid]; ring
  have e3 : D c a (mid a b c) = D a b c / 3 := by simp only [D, mid]; ring
  exact ⟨by rw [e1]; linarith, by rw [e2]; linarith, by rw [e3]; linarith⟩

theorem Inn.toward {a b c y v : P2} (hy : Inn a b c y) (hv : Cl a b c v) {s : ℚ} (s0 : 0 ≤ s) (s1 : s < 1) : Inn a b c (at' y v s) := by
  have : ∀ {p q : ℚ}, 0 < p → 0 ≤ q → 0 < (1 - s) * p + s * q := fun hp hq => by
    have := mul_pos (sub_pos.2 s1) hp
    have := mul_nonneg s0 hq
    linarith
  exact ⟨by rw [D_at]; exact this hy.ab hv.ab, by rw [D_at]; exact this hy.bc hv.bc, by rw [D_at]; exact this hy.ca hv.ca⟩

theorem Good.vis {a b c y v : P2} (h : Good V S F h1 a b c) (hy : Inn a b c y) (hv : Cl a b c v) : Vis S y v := by
  rintro x ⟨s, s0, s1, rfl⟩ hne c' d' hcd
  refine h.empty _ (hy.toward hv s0 (lt_of_le_of_ne s1 ?_)) c' d' hcd
  rintro rfl
  exact hne (at_one _ _)

theorem cl_a {a b c : P2} (h : 0 < D a b c) : Cl a b c a := ⟨(D_same3 _ _).ge, by rw [← D_cyc]; exact h.le, (D_same2 _ _).ge⟩
theorem cl_b {a b c : P2} (h : 0 < D a b c) : Cl a b c b := (cl_a (a := b) (b := c) (c := a) (by rwa [← D_cyc])).cyc.cyc
theorem cl_c {a b c : P2} (h : 0 < D a b c) : Cl a b c c := (cl_b (a := b) (b := c) (c := a) (by rwa [← D_cyc])).cyc.cyc

/-- Points on two sides are corners. -/
theorem corner_of {a b c d : P2} (h : D a b c ≠ 0) (k1 : D b c d = 0) (k2 : D c a d = 0) : d = c :=
  two_zero (A := a) (B := b) (by rw [D_swap', k2, neg_zero]) (by rw [D_cyc, D_cyc, k1]) (by rwa [D_cyc])

theorem E_zero_corner (hF : F.Pos) {a b c d : P2} (h : D a b c ≠ 0) (hE : E F.ev a b c d = 0) (hz : D b c d = 0) : d = b ∨ d = c := by
  have id := E_bary F a b c d
  rw [hE, D_cyc d b c, hz] at id
  simp only [mul_zero, zero_mul, zero_add, add_zero] at id
  have hbc : b ≠ c := by rintro rfl; exact h (D_same2 _ _)
  have := (mul_eq_zero.1 (show D d c a * D d a b * F.sq b c = 0 by linarith)).resolve_right (sq_pos' hF hbc).ne'
  rcases mul_eq_zero.1 this with k | k
  · exact .inr (corner_of h hz (by rwa [← D_cyc]))
  · exact .inl (corner_of (a := c) (b := a) (c := b) (by rwa [D_cyc]) (by rwa [← D_cyc]) hz)

theorem Good.vertex (hF : F.Pos) {a b c d : P2} (h : Good V S F h1 a b c) (hd : d ∈ V) (hc : Cl a b c d) : d = a ∨ d = b ∨ d = c := by
  have low := (h.low _ (mid_inn h.pos) d hd (h.vis (mid_inn h.pos) hc)).fst
  have id := E_bary F a b c d
  rw [D_cyc d b c, D_cyc d c a, D_cyc d a b] at id
  have hab : a ≠ b := by rintro rfl; exact h.pos.ne' (D_same1 _ _)
  have hbc : b ≠ c := by rintro rfl; exact h.pos.ne' (D_same2 _ _)
  have k1 := mul_nonneg (mul_nonneg hc.bc hc.ca) (sq_nonneg' hF a b)
  have k2 := mul_nonneg (mul_nonneg hc.ca hc.ab) (sq_nonneg' hF b c)
  have k3 := mul_nonneg (mul_nonneg hc.ab hc.bc) (sq_nonneg' hF c a)
  have k0 := mul_nonneg h.pos.le low
  have z1 := (mul_eq_zero.1 (show D b c d * D c a d * F.sq a b = 0 by linarith)).resolve_right (sq_pos' hF hab).ne'
  have z2 := (mul_eq_zero.1 (show D c a d * D a b d * F.sq b c = 0 by linarith)).resolve_right (sq_pos' hF hbc).ne'
  have hE : E F.ev a b c d = 0 := (mul_eq_zero.1 (show D a b c * E F.ev a b c d = 0 by linarith)).resolve_left h.pos.ne'
  rcases mul_eq_zero.1 z1 with k | k
  · exact .inr (E_zero_corner hF h.pos.ne' hE k)
  · rcases E_zero_corner hF (a := b) (b := c) (c := a) (d := d) (by rw [← D_cyc]; exact h.pos.ne') (by rwa [E_cyc]) k with e | e
    · exact .inr (.inr e)
    · exact .inl e

/-! ## Triangles that overlap are equal -/

/-- The second height is in general position. -/
def GenH (V : Finset P2) (h : P2 → ℚ) : Prop := ∀ a ∈ V, ∀ b ∈ V, ∀ c ∈ V, ∀ d ∈ V, D a b c ≠ 0 → D d b c ≠ 0 → D d c a ≠ 0 → D d a b ≠ 0 → E h a b c d ≠ 0

/-- A strict order of the points. -/
structure Order (lt : P2 → P2 → Prop) : Prop where
  irrefl : ∀ x, ¬ lt x x
  trans : ∀ x y z, lt x y → lt y z → lt x z
  total : ∀ x y, x = y ∨ lt x y ∨ lt y x

/-- Greater points are much higher than smaller ones. -/
def Steep (lt : P2 → P2 → Prop) (V : Finset P2) (h : P2 → ℚ) : Prop := ∀ x ∈ V, ∀ y ∈ V, ∀ z ∈ V, ∀ g ∈ V, lt x g → lt y g → lt z g → D x y z ≠ 0 → 0 < D x y z * E h x y z g

theorem fresh (s : Finset ℚ) : ∃ q, ∀ x ∈ s, x < q := by
  rcases s.eq_empty_or_nonempty with rfl | h
  · exact ⟨0, by simp⟩
  · obtain ⟨m, -, hm⟩ := Finset.exists_max_image s id h
    refine ⟨m + 1, fun x k => ?_⟩
    have := hm _ k
    simp only [id] at this
    linarith

variable {lt : P2 → P2 → Prop}

theorem greatest (O : Order lt) (V : Finset P2) (hV : V.Nonempty) : ∃ g ∈ V, ∀ x ∈ V, x ≠ g → lt x g := by
  induction V using Finset.induction_on with
  | empty => exact absurd rfl hV.ne_empty
  | insert v V hv ih =>
    rcases V.eq_empty_or_nonempty with rfl | hne
    · exact ⟨v, by simp, fun x hx hn => by simp at hx; exact absurd hx hn⟩
    obtain ⟨g, hg, hx⟩ := ih hne
    rcases O.total v g with e | e | e
    · exact absurd (e ▸ hg) hv
    · refine ⟨g, Finset.mem_insert_of_mem hg, fun x hx' hn => ?_⟩
      rcases Finset.mem_insert.1 hx' with rfl | hx'
      exacts [e, hx x hx' hn]
    · refine ⟨v, Finset.mem_insert_self _ _, fun x hx' hn => ?_⟩
      have hx' := (Finset.mem_insert.1 hx').resolve_left hn
      by_cases k : x = g
      · exact k ▸ e
      · exact O.trans _ _ _ (hx x hx' k) e

theorem steep_exists (O : Order lt) (n : Nat) : ∀ V : Finset P2, V.card = n → ∃ h, Steep lt V h := by
  classical
  induction n with
  | zero =>
    intro V hV
    rw [Finset.card_eq_zero] at hV
    subst hV
    exact ⟨fun _ => 0, by intro a ha; simp at ha⟩
  | succ n ih =>
    intro V hV
    obtain ⟨g, hg, hmax⟩ := greatest O V (Finset.card_pos.1 (by omega))
    obtain ⟨h, hh⟩ := ih (V.erase g) (by rw [Finset.card_erase_of_mem hg, hV]; rfl)
    let bound : P2 × P2 × P2 → ℚ := fun t => (D g t.2.1 t.2.2 * h t.1 + D g t.2.2 t.1 * h t.2.1 + D g t.1 t.2.1 * h t.2.2) / D t.1 t.2.1 t.2.2
    obtain ⟨q, hq⟩ := fresh ((V ×ˢ V ×ˢ V).image bound)
    refine ⟨Function.update h g q, fun x hx y hy z hz k hk l1 l2 l3 hD => ?_⟩
    have ne : ∀ {x}, x ∈ V → lt x k → x ≠ g := by
      rintro x hx l rfl
      by_cases e : k = x
      · exact O.irrefl _ (e ▸ l)
      · exact O.irrefl _ (O.trans _ _ _ l (hmax k hk e))
    have nx := ne hx l1; have ny := ne hy l2; have nz := ne hz l3
    by_cases e : k = g
    · subst e
      have := hq (bound (x, y, z)) (Finset.mem_image.2 ⟨(x, y, z), by simp [hx, hy, hz], rfl⟩)
      simp only [bound] at this
      simp only [E, Function.update_self, Function.update_of_ne nx, Function.update_of_ne ny, Function.update_of_ne nz]
      have hsq : 0 < D x y z * D x y z := mul_self_pos.2 hD
      have e2 : D x y z * (D x y z * q - (D k y z * h x + D k z x * h y + D k x y * h z)) = (D x y z * D x y z) * (q - (D k y z * h x + D k z x * h y + D k x y * h z) / D x y z) := by field_simp
      rw [e2]
      exact mul_pos hsq (by linarith)
    · have := hh x (Finset.mem_erase.2 ⟨nx, hx⟩) y (Finset.mem_erase.2 ⟨ny, hy⟩) z (Finset.mem_erase.2 ⟨nz, hz⟩) k (Finset.mem_erase.2 ⟨e, hk⟩) l1 l2 l3 hD
      simpa only [E, Function.update_of_ne nx, Function.update_of_ne ny, Function.update_of_ne nz, Function.update_of_ne e] using this

theorem steep_genH (O : Order lt) {h : P2 → ℚ} (hs : Steep lt V h) : GenH V h := by
  intro a ha b hb c hc d hd n1 n2 n3 n4 hE
  have key : ∀ {x y z g}, x ∈ V → y ∈ V → z ∈ V → g ∈ V → lt x g → lt y g → lt z g → D x y z ≠ 0 → E h x y z g ≠ 0 := by
    intro x y z g hx hy hz hg l1 l2 l3 hD h0
    have := hs x hx y hy z hz g hg l1 l2 l3 hD
    rw [h0, mul_zero] at this
    exact lt_irrefl _ this
  have ab : a ≠ b := by rintro rfl; exact n1 (D_same1 _ _)
  have bc : b ≠ c := by rintro rfl; exact n1 (D_same2 _ _)
  have ca : c ≠ a := by rintro rfl; exact n1 (D_same3 _ _)
  have db : d ≠ b := by rintro rfl; exact n2 (D_same1 _ _)
  have dc : d ≠ c := by rintro rfl; exact n2 (D_same3 _ _)
  have da : d ≠ a := by rintro rfl; exact n3 (D_same3 _ _)
  have e1 : E h d b c a = - E h a b c d := by simp only [E, D]; ring
  have e2 : E h d c a b = - E h a b c d := by simp only [E, D]; ring
  have e3 : E h d a b c = - E h a b c d := by simp only [E, D]; ring
  classical
  obtain ⟨g, hg, hmax⟩ := greatest O ({a, b, c, d} : Finset P2) ⟨a, by simp⟩
  simp only [Finset.mem_insert, Finset.mem_singleton] at hg hmax
  rcases hg with rfl | rfl | rfl | rfl
  · exact key hd hb hc ha (hmax _ (by simp) da) (hmax _ (by simp) ab.symm) (hmax _ (by simp) ca) n2 (by rw [e1, hE, neg_zero])
  · exact key hd hc ha hb (hmax _ (by simp) db) (hmax _ (by simp) bc.symm) (hmax _ (by simp) ab) n3 (by rw [e2, hE, neg_zero])
  · exact key hd ha hb hc (hmax _ (by simp) dc) (hmax _ (by simp) ca.symm) (hmax _ (by simp) bc) n4 (by rw [e3, hE, neg_zero])
  · exact key ha hb hc hd (hmax _ (by simp) da.symm) (hmax _ (by simp) db.symm) (hmax _ (by simp) dc.symm) n1 hE

theorem height_sum (h : P2 → ℚ) (y a b c d e f : P2) : (D y e f * E h a b c d + D y f d * E h a b c e + D y d e * E h a b c f) +
    (D y b c * E h d e f a + D y c a * E h d e f b + D y a b * E h d e f c) = 0 := by
  simp only [E]
  generalize h a = ha; generalize h b = hb; generalize h c = hc; generalize h d = hd; generalize h e = he; generalize h f = hf
  simp only [D]; ring

theorem Good.same (hF : F.Pos) (hg : GenH V h1) {a b c d e f y : P2} (h : Good V S F h1 a b c) (k : Good V S F h1 d e f) (hy : Inn a b c y) (ky : Inn d e f y) :
    (a = d ∨ a = e ∨ a = f) ∧ (b = d ∨ b = e ∨ b = f) ∧ (c = d ∨ c = e ∨ c = f) := by
  have ld := h.low y hy d k.ha (k.vis ky (cl_a k.pos))
  have le := h.low y hy e k.hb (k.vis ky (cl_b k.pos))
  have lf := h.low y hy f k.hc (k.vis ky (cl_c k.pos))
  have la := k.low y ky a h.ha (h.vis hy (cl_a h.pos))
  have lb := k.low y ky b h.hb (h.vis hy (cl_b h.pos))
  have lc := k.low y ky c h.hc (h.vis hy (cl_c h.pos))
  have ws : 0 < D y e f ∧ 0 < D y f d ∧ 0 < D y d e ∧ 0 < D y b c ∧ 0 < D y c a ∧ 0 < D y a b :=
    ⟨by rw [D_cyc]; exact ky.bc, by rw [D_cyc]; exact ky.ca, by rw [D_cyc]; exact ky.ab, by rw [D_cyc]; exact hy.bc, by rw [D_cyc]; exact hy.ca, by rw [D_cyc]; exact hy.ab⟩
  obtain ⟨w1, w2, w3, w4, w5, w6⟩ := ws
  have zero : ∀ {p1 p2 p3 p4 p5 p6 : ℚ}, 0 ≤ p1 → 0 ≤ p2 → 0 ≤ p3 → 0 ≤ p4 → 0 ≤ p5 → 0 ≤ p6 →
      (D y e f * p1 + D y f d * p2 + D y d e * p3) + (D y b c * p4 + D y c a * p5 + D y a b * p6) = 0 → p4 = 0 ∧ p5 = 0 ∧ p6 = 0 := by
    intro p1 p2 p3 p4 p5 p6 h1 h2 h3 h4 h5 h6 e
    have := mul_nonneg w1.le h1; have := mul_nonneg w2.le h2; have := mul_nonneg w3.le h3
    have := mul_nonneg w4.le h4; have := mul_nonneg w5.le h5; have := mul_nonneg w6.le h6
    exact ⟨(mul_eq_zero.1 (show D y b c * p4 = 0 by linarith)).resolve_left w4.ne', (mul_eq_zero.1 (show D y c a * p5 = 0 by linarith)).resolve_left w5.ne',
      (mul_eq_zero.1 (show D y a b * p6 = 0 by linarith)).resolve_left w6.ne'⟩
  have s0 := height_sum F.ev y a b c d e f
  obtain ⟨za, zb, zc⟩ := zero ld.fst le.fst lf.fst la.fst lb.fst lc.fst s0
  obtain ⟨zd, ze, zf⟩ : E F.ev a b c d = 0 ∧ E F.ev a b c e = 0 ∧ E F.ev a b c f = 0 := by
    rw [za, zb, zc] at s0
    have := mul_nonneg w1.le ld.fst; have := mul_nonneg w2.le le.fst; have := mul_nonneg w3.le lf.fst
    exact ⟨(mul_eq_zero.1 (show D y e f * _ = 0 by linarith)).resolve_left w1.ne', (mul_eq_zero.1 (show D y f d * _ = 0 by linarith)).resolve_left w2.ne',
      (mul_eq_zero.1 (show D y d e * _ = 0 by linarith)).resolve_left w3.ne'⟩
  have snd : ∀ {e0 e1 : ℚ}, Lex0 e0 e1 → e0 = 0 → 0 ≤ e1 := by
    rintro e0 e1 (h | h) e
    · exact absurd e h.ne'
    · exact h.2
  obtain ⟨ya, yb, yc⟩ := zero (snd ld zd) (snd le ze) (snd lf zf) (snd la za) (snd lb zb) (snd lc zc) (height_sum h1 y a b c d e f)
  have fin : ∀ v ∈ V, E F.ev d e f v = 0 → E h1 d e f v = 0 → v = d ∨ v = e ∨ v = f := by
    intro v hv z0 z1
    have hp := k.pos.ne'
    by_cases n1 : D e f v = 0
    · exact .inr (E_zero_corner hF hp z0 n1)
    by_cases n2 : D f d v = 0
    · rcases E_zero_corner hF (a := e) (b := f) (c := d) (d := v) (by rwa [← D_cyc]) (by rwa [E_cyc]) n2 with r | r
      exacts [.inr (.inr r), .inl r]
    by_cases n3 : D d e v = 0
    · rcases E_zero_corner hF (a := f) (b := d) (c := e) (d := v) (by rwa [D_cyc]) (by rwa [E_cyc, E_cyc]) n3 with r | r
      exacts [.inl r, .inr (.inl r)]
    exact absurd z1 (hg d k.ha e k.hb f k.hc v hv hp (by rwa [D_cyc]) (by rwa [D_cyc]) (by rwa [D_cyc]))
  exact ⟨fin a h.ha za ya, fin b h.hb zb yb, fin c h.hc zc yc⟩

end Kigumi.Plane
