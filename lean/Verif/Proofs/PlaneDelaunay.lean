import Verif.Proofs.Plane

/-!
# Constrained Delaunay triangulations in a plane: the triangle around a point

Vertices are lifted to a paraboloid, and raised by a second height that decides ties.
Of the triangles between vertices that can be seen from a point, take the one whose lifted triangle is the lowest at the point.
-/
namespace Kigumi.Plane

/-- Quadratic functions. -/
structure Form where
  (p q r l m n : ℚ)

def Form.ev (F : Form) (x : P2) : ℚ := F.p * x.x ^ 2 + 2 * F.q * x.x * x.y + F.r * x.y ^ 2 + F.l * x.x + F.m * x.y + F.n

/-- Strictly convex. -/
def Form.Pos (F : Form) : Prop := 0 < F.p ∧ F.q ^ 2 < F.p * F.r

def Form.sq (F : Form) (a b : P2) : ℚ := F.p * (a.x - b.x) ^ 2 + 2 * F.q * (a.x - b.x) * (a.y - b.y) + F.r * (a.y - b.y) ^ 2

/-- How far a lifted point is above a lifted triangle. -/
def E (h : P2 → ℚ) (a b c d : P2) : ℚ := D a b c * h d - (D d b c * h a + D d c a * h b + D d a b * h c)

/-- The height of a lifted triangle at a point. -/
def Hgt (h : P2 → ℚ) (y a b c : P2) : ℚ := (D y b c * h a + D y c a * h b + D y a b * h c) / D a b c

def Lex0 (e0 e1 : ℚ) : Prop := 0 < e0 ∨ e0 = 0 ∧ 0 ≤ e1

variable {V : Finset P2} {S : P2 → P2 → Prop} {F : Form} {h1 : P2 → ℚ}

theorem Lex0.fst {e0 e1 : ℚ} (h : Lex0 e0 e1) : 0 ≤ e0 := h.elim le_of_lt fun h => h.1.ge

theorem sq_nonneg' (hF : F.Pos) (a b : P2) : 0 ≤ F.sq a b := by
  have : F.p * F.sq a b = (F.p * (a.x - b.x) + F.q * (a.y - b.y)) ^ 2 + (F.p * F.r - F.q ^ 2) * (a.y - b.y) ^ 2 := by simp only [Form.sq]; ring
  have h2 : 0 ≤ F.p * F.sq a b := by
    rw [this]
    exact add_nonneg (_root_.sq_nonneg _) (mul_nonneg (sub_nonneg.2 hF.2.le) (_root_.sq_nonneg _))
  exact nonneg_of_mul_nonneg_right h2 hF.1

theorem sq_pos' (hF : F.Pos) {a b : P2} (hab : a ≠ b) : 0 < F.sq a b := by
  have id : F.p * F.sq a b = (F.p * (a.x - b.x) + F.q * (a.y - b.y)) ^ 2 + (F.p * F.r - F.q ^ 2) * (a.y - b.y) ^ 2 := by simp only [Form.sq]; ring
  refine lt_of_le_of_ne (sq_nonneg' hF a b) fun h => ?_
  rw [← h, mul_zero] at id
  have k1 : 0 ≤ (F.p * (a.x - b.x) + F.q * (a.y - b.y)) ^ 2 := _root_.sq_nonneg _
  have k2 : 0 ≤ (F.p * F.r - F.q ^ 2) * (a.y - b.y) ^ 2 := mul_nonneg (sub_nonneg.2 hF.2.le) (_root_.sq_nonneg _)
  have e2 := (mul_eq_zero.1 (le_antisymm (by linarith) k2)).resolve_left (sub_pos.2 hF.2).ne'
  have e2 := pow_eq_zero_iff two_ne_zero |>.1 e2
  have e1 := pow_eq_zero_iff two_ne_zero |>.1 (le_antisymm (by linarith) k1)
  rw [e2, mul_zero, add_zero] at e1
  have e1 := (mul_eq_zero.1 e1).resolve_left hF.1.ne'
  exact hab (by ext <;> linarith)

theorem E_cyc (h : P2 → ℚ) (a b c d : P2) : E h b c a d = E h a b c d := by
  simp only [E]; rw [← D_cyc a b c]; ring
theorem Hgt_cyc (h : P2 → ℚ) (y a b c : P2) : Hgt h y b c a = Hgt h y a b c := by
  simp only [Hgt]; rw [← D_cyc a b c]; ring_nf
theorem E_a (h : P2 → ℚ) (a b c : P2) : E h a b c a = 0 := by simp only [E, D]; ring
theorem E_b (h : P2 → ℚ) (a b c : P2) : E h a b c b = 0 := by simp only [E, D]; ring
theorem E_c (h : P2 → ℚ) (a b c : P2) : E h a b c c = 0 := by simp only [E, D]; ring

/-- Interior points are strictly below. -/
theorem E_bary (F : Form) (a b c d : P2) :
    D a b c * E F.ev a b c d = -(D d b c * D d c a * F.sq a b + D d c a * D d a b * F.sq b c + D d a b * D d b c * F.sq c a) := by
  simp only [E, D, Form.ev, Form.sq]; ring

theorem Inn.pos {a b c y : P2} (h : Inn a b c y) : 0 < D a b c := by
  have := D_sum a b c y
  have e1 := D_cyc y b c; have e2 := D_cyc y c a; have e3 := D_cyc y a b
  have := h.ab; have := h.bc; have := h.ca
  linarith

theorem E_neg (hF : F.Pos) {a b c y : P2} (h : Inn a b c y) : E F.ev a b c y < 0 := by
  have id := E_bary F a b c y
  have e1 := D_cyc y b c; have e2 := D_cyc y c a; have e3 := D_cyc y a b
  rw [e1, e2, e3] at id
  have hab : a ≠ b := by rintro rfl; have := h.pos; rw [D_same1] at this; exact lt_irrefl _ this
  have k1 := mul_pos (mul_pos h.bc h.ca) (sq_pos' hF hab)
  have k2 := mul_nonneg (mul_pos h.ca h.ab).le (sq_nonneg' hF b c)
  have k3 := mul_nonneg (mul_pos h.ab h.bc).le (sq_nonneg' hF c a)
  by_contra hn
  nlinarith [mul_nonneg h.pos.le (not_lt.1 hn)]

/-- The function is convex. -/
theorem E_conv (hF : F.Pos) {a b c y z p : P2} {r s t : ℚ} (h : 0 ≤ D a b c) (r0 : 0 ≤ r) (s0 : 0 ≤ s) (t0 : 0 ≤ t) (one : r + s + t = 1) :
    E F.ev a b c ⟨r * y.x + s * z.x + t * p.x, r * y.y + s * z.y + t * p.y⟩ ≤ r * E F.ev a b c y + s * E F.ev a b c z + t * E F.ev a b c p := by
  have id : E F.ev a b c ⟨r * y.x + s * z.x + t * p.x, r * y.y + s * z.y + t * p.y⟩ =
      r * E F.ev a b c y + s * E F.ev a b c z + t * E F.ev a b c p - D a b c * (r * s * F.sq y z + s * t * F.sq z p + t * r * F.sq p y) := by
    have : r = 1 - s - t := by linarith
    subst this
    simp only [E, D, Form.ev, Form.sq]; ring
  rw [id]
  have k1 := mul_nonneg (mul_nonneg r0 s0) (sq_nonneg' hF y z)
  have k2 := mul_nonneg (mul_nonneg s0 t0) (sq_nonneg' hF z p)
  have k3 := mul_nonneg (mul_nonneg t0 r0) (sq_nonneg' hF p y)
  have := mul_nonneg h (add_nonneg (add_nonneg k1 k2) k3)
  linarith

/-! ## The lowest triangle -/

theorem exchange (h : P2 → ℚ) {y a b c d : P2} (hc : D a b c ≠ 0) (hd : D a b d ≠ 0) :
    Hgt h y a b d - Hgt h y a b c = D y a b / (D a b d * D a b c) * E h a b c d := by
  simp only [Hgt, E]
  field_simp
  simp only [D]
  ring

def Least (V : Finset P2) (S : P2 → P2 → Prop) (F : Form) (h1 : P2 → ℚ) (y a b c : P2) : Prop :=
  ∀ a' b' c', Around V S y a' b' c' → Lex0 (Hgt F.ev y a' b' c' - Hgt F.ev y a b c) (Hgt h1 y a' b' c' - Hgt h1 y a b c)

theorem Around.cyc {y a b c : P2} (h : Around V S y a b c) : Around V S y b c a := ⟨h.hb, h.hc, h.ha, h.vb, h.vc, h.va, h.bc, h.ca, h.ab⟩

theorem Around.inn {y a b c : P2} (h : Around V S y a b c) : Inn a b c y :=
  ⟨by rw [← D_cyc]; exact h.ab, by rw [← D_cyc]; exact h.bc, by rw [← D_cyc]; exact h.ca⟩

theorem Least.cyc {y a b c : P2} (h : Least V S F h1 y a b c) : Least V S F h1 y b c a := by
  intro a' b' c' k
  rw [Hgt_cyc _ y a b c, Hgt_cyc _ y a b c]
  exact h a' b' c' k

theorem lex_min {α : Type} {T : Finset α} (hT : T.Nonempty) (f g : α → ℚ) : ∃ t ∈ T, ∀ u ∈ T, Lex0 (f u - f t) (g u - g t) := by
  classical
  obtain ⟨t0, m0, min0⟩ := Finset.exists_min_image T f hT
  obtain ⟨t1, m1, min1⟩ := Finset.exists_min_image (T.filter fun t => f t = f t0) g ⟨t0, Finset.mem_filter.2 ⟨m0, rfl⟩⟩
  obtain ⟨m1, e1⟩ := Finset.mem_filter.1 m1
  refine ⟨t1, m1, fun u hu => ?_⟩
  rw [e1]
  rcases eq_or_lt_of_le (min0 u hu) with e | l
  · exact .inr ⟨by rw [e, sub_self], sub_nonneg.2 (min1 u (Finset.mem_filter.2 ⟨hu, e.symm⟩))⟩
  · exact .inl (sub_pos.2 l)

theorem least_exists {y a b c : P2} (h : Around V S y a b c) : ∃ a b c, Around V S y a b c ∧ Least V S F h1 y a b c := by
  classical
  obtain ⟨T, hT⟩ : ∃ T : Finset (P2 × P2 × P2), ∀ t, t ∈ T ↔ Around V S y t.1 t.2.1 t.2.2 := by
    refine ⟨(V ×ˢ (V ×ˢ V)).filter fun t => Around V S y t.1 t.2.1 t.2.2, fun t => ?_⟩
    simp only [Finset.mem_filter, Finset.mem_product, and_iff_right_iff_imp]
    exact fun h => ⟨h.ha, h.hb, h.hc⟩
  obtain ⟨t, m, hm⟩ := lex_min (T := T) ⟨(a, b, c), (hT _).2 h⟩ (fun t => Hgt F.ev y t.1 t.2.1 t.2.2) (fun t => Hgt h1 y t.1 t.2.1 t.2.2)
  exact ⟨t.1, t.2.1, t.2.2, (hT t).1 m, fun a' b' c' k => hm (a', b', c') ((hT _).2 k)⟩

theorem replace {y a b c d : P2} (ha : Around V S y a b c) (hl : Least V S F h1 y a b c) (hd : d ∈ V) (vd : Vis S y d) (k1 : 0 < D y b d) (k2 : D y a d < 0) :
    Lex0 (E F.ev a b c d) (E h1 a b c d) := by
  have hn : Around V S y a b d := ⟨ha.ha, ha.hb, hd, ha.va, ha.vb, vd, ha.ab, k1, by rw [D_swap' y d a]; linarith⟩
  have pc := ha.inn.pos
  have pd := hn.inn.pos
  have := hl a b d hn
  rw [exchange _ pc.ne' pd.ne', exchange _ pc.ne' pd.ne'] at this
  have hk : 0 < D y a b / (D a b d * D a b c) := div_pos ha.ab (mul_pos pd pc)
  rcases this with h | ⟨h, h'⟩
  · exact .inl (pos_of_mul_pos_right h hk.le)
  · exact .inr ⟨(mul_eq_zero.1 h).resolve_left hk.ne', nonneg_of_mul_nonneg_right h' hk⟩

/-- No visible vertex is below. -/
theorem least_low {y a b c d : P2} (g : Gen V y) (ha : Around V S y a b c) (hl : Least V S F h1 y a b c) (hd : d ∈ V) (vd : Vis S y d) :
    Lex0 (E F.ev a b c d) (E h1 a b c d) := by
  by_cases da : a = d
  · subst da; exact .inr ⟨E_a _ _ _ _, (E_a _ _ _ _).ge⟩
  by_cases db : b = d
  · subst db; exact .inr ⟨E_b _ _ _ _, (E_b _ _ _ _).ge⟩
  by_cases dc : c = d
  · subst dc; exact .inr ⟨E_c _ _ _ _, (E_c _ _ _ _).ge⟩
  have na := g.2 a ha.ha d hd da
  have nb := g.2 b ha.hb d hd db
  have nc := g.2 c ha.hc d hd dc
  have id : D y b c * D y a d + D y c a * D y b d + D y a b * D y c d = 0 := by simp only [D]; ring
  have rab : 0 < D y b d → D y a d < 0 → Lex0 (E F.ev a b c d) (E h1 a b c d) := replace ha hl hd vd
  have rbc : 0 < D y c d → D y b d < 0 → Lex0 (E F.ev a b c d) (E h1 a b c d) := fun k1 k2 => by
    have := replace ha.cyc hl.cyc hd vd k1 k2
    rwa [E_cyc _ a b c, E_cyc _ a b c] at this
  have rca : 0 < D y a d → D y c d < 0 → Lex0 (E F.ev a b c d) (E h1 a b c d) := fun k1 k2 => by
    have := replace ha.cyc.cyc hl.cyc.cyc hd vd k1 k2
    rwa [E_cyc _ b c a, E_cyc _ b c a, E_cyc _ a b c, E_cyc _ a b c] at this
  rcases lt_or_gt_of_ne na with a1 | a1 <;> rcases lt_or_gt_of_ne nb with b1 | b1 <;> rcases lt_or_gt_of_ne nc with c1 | c1
  · nlinarith [mul_pos ha.bc (neg_pos.2 a1), mul_pos ha.ca (neg_pos.2 b1), mul_pos ha.ab (neg_pos.2 c1)]
  · exact rbc c1 b1
  · exact rab b1 a1
  · exact rab b1 a1
  · exact rca a1 c1
  · exact rbc c1 b1
  · exact rca a1 c1
  · nlinarith [mul_pos ha.bc a1, mul_pos ha.ca b1, mul_pos ha.ab c1]

/-! ## Nothing is inside of the lowest triangle -/

theorem at_inj {a b : P2} {s t : ℚ} (hab : a ≠ b) (h : at' a b s = at' a b t) : s = t := by
  by_contra hn
  apply hab
  have e1 : (s - t) * (b.x - a.x) = 0 := by have := congrArg P2.x h; simp only [at'] at this; linarith
  have e2 : (s - t) * (b.y - a.y) = 0 := by have := congrArg P2.y h; simp only [at'] at this; linarith
  have e1 := (mul_eq_zero.1 e1).resolve_left (sub_ne_zero.2 hn)
  have e2 := (mul_eq_zero.1 e2).resolve_left (sub_ne_zero.2 hn)
  ext <;> linarith

theorem sector (N : Net V S) (hF : F.Pos) {y a b c z c' d' : P2} (g : Gen V y) (ha : Around V S y a b c) (low : ∀ d ∈ V, Vis S y d → 0 ≤ E F.ev a b c d) (hcd : S c' d')
    (hz : Seg c' d' z) (free : ∀ u, Seg y z u → u ≠ z → ∀ c d, S c d → ¬ Seg c d u) (hi : Inn a b c z) (k1 : 0 < D y a z) (k2 : D y b z ≤ 0) : False := by
  have hab : D a b y = D y a b := (D_cyc y a b).symm
  -- points on the way to a corner are not on constraints
  have toA : ∀ u, D y a u = 0 → 0 ≤ D y u b → 0 < D a b u → ¬ Seg c' d' u := by
    intro u h0 h1 h2 hs
    have hu := on_line ha.ab.ne' h0
    generalize hβ : D y u b / D y a b = β at hu
    have b0 : 0 ≤ β := by rw [← hβ]; exact div_nonneg h1 ha.ab.le
    have b1 : β < 1 := by
      rw [hu, D_at, D_same3, hab] at h2
      by_contra hn
      nlinarith [mul_nonneg (sub_nonneg.2 (not_lt.1 hn)) ha.ab.le]
    refine ha.va u ⟨β, b0, b1.le, hu⟩ ?_ c' d' hcd hs
    rintro rfl
    rw [D_same3] at h2
    exact lt_irrefl _ h2
  have toB : ∀ u, D y b u = 0 → 0 ≤ D y a u → 0 < D a b u → ¬ Seg c' d' u := by
    intro u h0 h1 h2 hs
    have hba : D y b a = - D y a b := D_swap' y b a
    have hne : D y b a ≠ 0 := by rw [hba]; exact neg_ne_zero.2 ha.ab.ne'
    have hu := on_line hne h0
    generalize hβ : D y u a / D y b a = β at hu
    have b0 : 0 ≤ β := by rw [← hβ, hba, D_swap' y u a, neg_div_neg_eq]; exact div_nonneg h1 ha.ab.le
    have b1 : β < 1 := by
      rw [hu, D_at, D_same2, hab] at h2
      by_contra hn
      nlinarith [mul_nonneg (sub_nonneg.2 (not_lt.1 hn)) ha.ab.le]
    refine ha.vb u ⟨β, b0, b1.le, hu⟩ ?_ c' d' hcd hs
    rintro rfl
    rw [D_same2] at h2
    exact lt_irrefl _ h2
  by_cases hzV : z ∈ V
  · exact absurd (low z hzV free) (not_le.2 (E_neg hF hi))
  have k2 : D y b z < 0 := lt_of_le_of_ne k2 fun h => toB z h k1.le hi.ab hz
  have he : ∃ e, (e = c' ∨ e = d') ∧ D a b z ≤ D a b e := by
    obtain ⟨r, r0, r1, rfl⟩ := hz
    rw [D_at]
    by_cases h : D a b d' ≤ D a b c'
    · exact ⟨c', .inl rfl, by nlinarith⟩
    · exact ⟨d', .inr rfl, by nlinarith [not_le.1 h]⟩
  obtain ⟨e, hec, hee⟩ := he
  obtain ⟨hcV, hdV, hne⟩ := N.ends hcd
  have heV : e ∈ V := by rcases hec with rfl | rfl; exacts [hcV, hdV]
  have hes : Seg c' d' e := by rcases hec with rfl | rfl; exacts [seg_left _ _, seg_right _ _]
  have hep : 0 < D a b e := lt_of_lt_of_le hi.ab hee
  have hby : ∀ u, D b y u = -D y b u := fun u => D_swap b y u
  have k2' : 0 < D b y z := by rw [hby]; linarith
  have pos : ∀ s, 0 < s → s ≤ 1 → 0 < D a b (at' z e s) := by
    intro s s0 s1
    rw [D_at]
    nlinarith [mul_nonneg (sub_nonneg.2 s1) hi.ab.le, mul_pos s0 hep]
  rcases exit2 (f1 := D y a e) (g1 := D b y e) k1 k2' with ⟨j1, j2⟩ | ⟨r, r0, r1, j1, j2⟩ | ⟨r, r0, r1, j1, j2⟩
  · have hEe : E F.ev a b c e < 0 := by
      have hD := ha.ab.ne'
      have one : D a b e / D y a b + D b y e / D y a b + D y a e / D y a b = 1 := by field_simp; simp only [D]; ring
      have eq : e = ⟨D a b e / D y a b * y.x + D b y e / D y a b * a.x + D y a e / D y a b * b.x, D a b e / D y a b * y.y + D b y e / D y a b * a.y + D y a e / D y a b * b.y⟩ := by
        ext
        · field_simp; simp only [D]; ring
        · field_simp; simp only [D]; ring
      have := E_conv hF (y := y) (z := a) (p := b) ha.inn.pos.le (div_pos hep ha.ab).le (div_pos j2 ha.ab).le (div_pos j1 ha.ab).le one
      rw [← eq, E_a, E_b] at this
      have := mul_pos (div_pos hep ha.ab) (neg_pos.2 (E_neg hF ha.inn))
      linarith
    have hDz : D y z e ≠ 0 := by
      have k := g.2 c' hcV d' hdV hne
      have hzne : z ≠ e := fun h => hzV (h ▸ heV)
      obtain ⟨r, r0, r1, rfl⟩ := id hz
      rcases hec with rfl | rfl
      · have : D y (at' e d' r) e = -(r * D y e d') := by simp only [D, at']; ring
        rw [this]
        exact neg_ne_zero.2 (mul_ne_zero (by rintro rfl; exact hzne (at_zero _ _)) k)
      · have : D y (at' c' e r) e = (1 - r) * D y c' e := by simp only [D, at']; ring
        rw [this]
        refine mul_ne_zero (fun h => hzne ?_) k
        rw [show r = 1 by linarith, at_one]
    obtain ⟨v, hv, vis, r, s, t, r0, s0, t0, one, rfl⟩ := turn N g heV hDz free (side_ok N hcd hz hzV hec)
    have l := low _ hv vis
    have cv := E_conv hF (y := y) (z := z) (p := e) ha.inn.pos.le r0 s0 t0.le one
    have := mul_nonneg r0 (neg_nonneg.2 (E_neg hF ha.inn).le)
    have := mul_nonneg s0 (neg_nonneg.2 (E_neg hF hi).le)
    have := mul_pos t0 (neg_pos.2 hEe)
    linarith
  · rw [← D_at] at j1 j2
    refine toA _ j1 ?_ (pos r r0 r1) (seg_part hz hes ⟨r, r0.le, r1, rfl⟩)
    rwa [D_cyc b y] at j2
  · rw [← D_at] at j1 j2
    refine toB _ ?_ j2 (pos r r0 r1) (seg_part hz hes ⟨r, r0.le, r1, rfl⟩)
    rw [hby] at j1
    linarith

theorem Inn.cyc {a b c y : P2} (h : Inn a b c y) : Inn b c a y := ⟨h.bc, h.ca, h.ab⟩

theorem Inn.seg {a b c y x u : P2} (hy : Inn a b c y) (hx : Inn a b c x) (hu : Seg y x u) : Inn a b c u := by
  obtain ⟨s, s0, s1, rfl⟩ := hu
  have : ∀ {p q : ℚ}, 0 < p → 0 < q → 0 < (1 - s) * p + s * q := by
    intro p q hp hq
    rcases eq_or_lt_of_le s0 with rfl | h
    · linarith
    · nlinarith [mul_nonneg (sub_nonneg.2 s1) hp.le, mul_pos h hq]
  exact ⟨by rw [D_at]; exact this hy.ab hx.ab, by rw [D_at]; exact this hy.bc hx.bc, by rw [D_at]; exact this hy.ca hx.ca⟩

/-- No constraint meets the inside of the lowest triangle. -/
theorem least_empty (N : Net V S) (hF : F.Pos) {y a b c x c' d' : P2} (g : Gen V y) (ha : Around V S y a b c) (low : ∀ d ∈ V, Vis S y d → 0 ≤ E F.ev a b c d) (hx : Inn a b c x)
    (hcd : S c' d') : ¬ Seg c' d' x := by
  intro hs
  obtain ⟨z, c1, d1, h1, hz, hzx, hzy, free, -⟩ := first_hit N g ⟨x, seg_right y x, c', d', hcd, hs⟩
  have hi : Inn a b c z := ha.inn.seg hx hzx
  have rab : 0 < D y a z → D y b z ≤ 0 → False := sector N hF g ha low h1 hz free hi
  have rbc : 0 < D y b z → D y c z ≤ 0 → False := sector N hF g ha.cyc (fun d h v => by rw [E_cyc]; exact low d h v) h1 hz free hi.cyc
  have rca : 0 < D y c z → D y a z ≤ 0 → False := sector N hF g ha.cyc.cyc (fun d h v => by rw [E_cyc, E_cyc]; exact low d h v) h1 hz free hi.cyc.cyc
  have id : D y b c * D y a z + D y c a * D y b z + D y a b * D y c z = 0 := by simp only [D]; ring
  have allpos : ¬ (0 < D y a z ∧ 0 < D y b z ∧ 0 < D y c z) := by
    rintro ⟨a1, b1, c1⟩
    nlinarith [mul_pos ha.bc a1, mul_pos ha.ca b1, mul_pos ha.ab c1]
  have nonpos : D y a z ≤ 0 ∧ D y b z ≤ 0 ∧ D y c z ≤ 0 := by
    by_cases a1 : 0 < D y a z
    · by_cases b1 : 0 < D y b z
      · by_cases c1 : 0 < D y c z
        · exact absurd ⟨a1, b1, c1⟩ allpos
        · exact (rbc b1 (not_lt.1 c1)).elim
      · exact (rab a1 (not_lt.1 b1)).elim
    · by_cases c1 : 0 < D y c z
      · exact (rca c1 (not_lt.1 a1)).elim
      · by_cases b1 : 0 < D y b z
        · exact (rbc b1 (not_lt.1 c1)).elim
        · exact ⟨not_lt.1 a1, not_lt.1 b1, not_lt.1 c1⟩
  obtain ⟨a1, b1, c1⟩ := nonpos
  have pa := mul_nonneg ha.bc.le (neg_nonneg.2 a1)
  have pb := mul_nonneg ha.ca.le (neg_nonneg.2 b1)
  have pc := mul_nonneg ha.ab.le (neg_nonneg.2 c1)
  have za := (mul_eq_zero.1 (show D y b c * D y a z = 0 by linarith)).resolve_left ha.bc.ne'
  have zb := (mul_eq_zero.1 (show D y c a * D y b z = 0 by linarith)).resolve_left ha.ca.ne'
  exact hzy (two_zero (by rw [D_swap', za, neg_zero]) (by rw [D_swap', zb, neg_zero]) ha.ab.ne')

/-- The triangles of the triangulation. -/
structure Good (V : Finset P2) (S : P2 → P2 → Prop) (F : Form) (h1 : P2 → ℚ) (a b c : P2) : Prop where
  ha : a ∈ V
  hb : b ∈ V
  hc : c ∈ V
  pos : 0 < D a b c
  empty : ∀ x, Inn a b c x → ∀ c' d', S c' d' → ¬ Seg c' d' x
  low : ∀ y, Inn a b c y → ∀ d ∈ V, Vis S y d → Lex0 (E F.ev a b c d) (E h1 a b c d)

/-- Generic points are in such triangles. -/
theorem good_at (N : Net V S) (hF : F.Pos) {A B C y : P2} (hA : A ∈ V) (hB : B ∈ V) (hC : C ∈ V) (g : Gen V y) (hy : Inn A B C y) : ∃ a b c, Good V S F h1 a b c ∧ Inn a b c y := by
  obtain ⟨a, b, c, h⟩ := around N hA hB hC g hy
  obtain ⟨a, b, c, h, hl⟩ := least_exists (F := F) (h1 := h1) h
  have low : ∀ d ∈ V, Vis S y d → Lex0 (E F.ev a b c d) (E h1 a b c d) := fun d hd vd => least_low g h hl hd vd
  have empty : ∀ x, Inn a b c x → ∀ c' d', S c' d' → ¬ Seg c' d' x := fun x hx c' d' hcd => least_empty N hF g h (fun d hd vd => (low d hd vd).fst) hx hcd
  refine ⟨a, b, c, ⟨h.ha, h.hb, h.hc, h.inn.pos, empty, ?_⟩, h.inn⟩
  intro y' hy' d hd vd
  by_cases hcol : D y y' d = 0
  · -- visible from `y` as well
    refine low d hd fun x hx hne c' d' hcd hs => ?_
    by_cases hyy : y = y'
    · subst hyy; exact vd x hx hne c' d' hcd hs
    have split : Seg y y' x ∨ Seg y' d x := by
      by_cases e : d = y'
      · subst e; exact .inl hx
      -- the parameter of `d` on the line
      obtain ⟨q, hq⟩ : ∃ q, d = at' y y' q := by
        by_cases hxne : y'.x - y.x = 0
        · have hyne : y'.y - y.y ≠ 0 := fun h => hyy (by ext <;> linarith)
          refine ⟨(d.y - y.y) / (y'.y - y.y), ?_⟩
          simp only [D] at hcol
          rw [hxne, zero_mul, zero_sub, neg_eq_zero] at hcol
          have := (mul_eq_zero.1 hcol).resolve_left hyne
          ext
          · simp only [at', hxne]; linarith
          · simp only [at']; field_simp; ring
        · refine ⟨(d.x - y.x) / (y'.x - y.x), ?_⟩
          simp only [D] at hcol
          ext
          · simp only [at']; field_simp; ring
          · simp only [at']; field_simp; linear_combination hcol
      obtain ⟨s, s0, s1, rfl⟩ := hx
      subst hq
      rw [at_at]
      by_cases h1 : 0 ≤ s * q ∧ s * q ≤ 1
      · exact .inl ⟨s * q, h1.1, h1.2, rfl⟩
      by_cases q0 : 0 ≤ q
      · have gt : 1 < s * q := by
          by_contra hn
          exact h1 ⟨mul_nonneg s0 q0, not_lt.1 hn⟩
        have q1 : 1 < q := by nlinarith
        right
        refine ⟨(s * q - 1) / (q - 1), div_nonneg (by linarith) (by linarith), (div_le_one (by linarith)).2 (by nlinarith), ?_⟩
        have : q - 1 ≠ 0 := by linarith
        ext
        · simp only [at']; field_simp; ring
        · simp only [at']; field_simp; ring
      · have q1 : q < 0 := not_le.1 q0
        right
        have hle : s * q ≤ 0 := by nlinarith
        have hge : q ≤ s * q := by nlinarith
        refine ⟨(1 - s * q) / (1 - q), div_nonneg (by linarith) (by linarith), (div_le_one (by linarith)).2 (by linarith), ?_⟩
        have : 1 - q ≠ 0 := by linarith
        ext
        · simp only [at']; field_simp; ring
        · simp only [at']; field_simp; ring
    rcases split with k | k
    · exact empty x (h.inn.seg hy' k) c' d' hcd hs
    · exact vd x k hne c' d' hcd hs
  · obtain ⟨v, hv, vis, r, s, t, r0, s0, t0, one, e⟩ := turn N g hd hcol (fun x hx _ c' d' hcd => empty x (h.inn.seg hy' hx) c' d' hcd)
      (fun x hx hne c' d' hcd hs => absurd hs (vd x hx hne c' d' hcd))
    have lv := low v hv vis
    by_cases hv : v = d
    · rwa [hv] at lv
    rcases lt_or_ge 0 (E F.ev a b c d) with k | k
    · exact .inl k
    · exfalso
      have lv := lv.fst
      have cv := E_conv hF (y := y) (z := y') (p := d) h.inn.pos.le r0 s0 t0.le one
      rw [← e] at cv
      have n1 := E_neg hF h.inn
      have n2 := E_neg hF hy'
      have j1 := mul_nonneg r0 (neg_nonneg.2 n1.le)
      have j2 := mul_nonneg s0 (neg_nonneg.2 n2.le)
      have j3 := mul_nonneg t0.le (neg_nonneg.2 k)
      have z1 := (mul_eq_zero.1 (show r * -E F.ev a b c y = 0 by linarith)).resolve_right (by linarith)
      have z2 := (mul_eq_zero.1 (show s * -E F.ev a b c y' = 0 by linarith)).resolve_right (by linarith)
      subst z1 z2
      have : t = 1 := by linarith
      subst this
      apply hv
      rw [e]
      ext <;> simp

end Kigumi.Plane
