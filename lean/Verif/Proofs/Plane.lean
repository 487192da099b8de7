import Verif.Tactics
import Mathlib.Data.Finset.Max
import Mathlib.Data.Finset.Prod
import Mathlib.Data.Finset.Image
import Mathlib.Algebra.Order.Field.Rat
import Mathlib.Tactic.LinearCombination
import Mathlib.Tactic.Ring
import Mathlib.Tactic.Linarith
import Mathlib.Tactic.FieldSimp
import Mathlib.Tactic.Positivity

/-!
# Constrained Delaunay triangulations in a plane: what can be seen from a point

Vertices are a finite set of points; constraints are segments between vertices that contain no other vertices and do not cross.
-/
namespace Kigumi.Plane

@[ext] structure P2 where
  x : ℚ
  y : ℚ
  deriving DecidableEq

/-- Twice the signed area of a triangle. -/
def D (a b c : P2) : ℚ := (b.x - a.x) * (c.y - a.y) - (b.y - a.y) * (c.x - a.x)

/-- The point that divides a segment. -/
def at' (a b : P2) (s : ℚ) : P2 := ⟨a.x + s * (b.x - a.x), a.y + s * (b.y - a.y)⟩

def Seg (a b x : P2) : Prop := ∃ s, 0 ≤ s ∧ s ≤ 1 ∧ x = at' a b s

/-- Vertices and constraints. -/
structure Net (V : Finset P2) (S : P2 → P2 → Prop) : Prop where
  ends : ∀ {c d}, S c d → c ∈ V ∧ d ∈ V ∧ c ≠ d
  clear : ∀ {c d v}, S c d → v ∈ V → Seg c d v → v = c ∨ v = d
  apart : ∀ {c d c' d' x}, S c d → S c' d' → Seg c d x → Seg c' d' x → x ∉ V → D c d c' = 0 ∧ D c d d' = 0

/-- The point is on no line through two vertices. -/
def Gen (V : Finset P2) (y : P2) : Prop := y ∉ V ∧ ∀ a ∈ V, ∀ b ∈ V, a ≠ b → D y a b ≠ 0

/-- Nothing is between the points, up to the second one. -/
def Vis (S : P2 → P2 → Prop) (y v : P2) : Prop := ∀ x, Seg y v x → x ≠ v → ∀ c d, S c d → ¬ Seg c d x

variable {V : Finset P2} {S : P2 → P2 → Prop}

/-! ## Segments -/

theorem D_at (a b c d : P2) (s : ℚ) : D a b (at' c d s) = (1 - s) * D a b c + s * D a b d := by
  simp only [D, at']; ring

theorem D_at1 (a b c d : P2) (s : ℚ) : D (at' c d s) a b = (1 - s) * D c a b + s * D d a b := by
  simp only [D, at']; ring

theorem D_cyc (a b c : P2) : D a b c = D b c a := by simp only [D]; ring
theorem D_swap (a b c : P2) : D a b c = -D b a c := by simp only [D]; ring
theorem D_swap' (a b c : P2) : D a b c = -D a c b := by simp only [D]; ring
theorem D_same1 (a b : P2) : D a a b = 0 := by simp only [D]; ring
theorem D_same2 (a b : P2) : D a b b = 0 := by simp only [D]; ring
theorem D_same3 (a b : P2) : D a b a = 0 := by simp only [D]; ring
theorem D_sum (a b c x : P2) : D a b c = D x b c + D x c a + D x a b := by simp only [D]; ring

/-- The relation of Grassmann and Plücker. -/
theorem plucker (y z v w p : P2) : D y z v * D y w p - D y z w * D y v p + D y z p * D y v w = 0 := by
  simp only [D]; ring

theorem at_zero (a b : P2) : at' a b 0 = a := by simp [at']
theorem at_one (a b : P2) : at' a b 1 = b := by ext <;> simp [at']
theorem at_at (a b : P2) (s t : ℚ) : at' a (at' a b s) t = at' a b (t * s) := by ext <;> simp only [at'] <;> ring
theorem at_rev (a b : P2) (s : ℚ) : at' a b s = at' b a (1 - s) := by ext <;> simp only [at'] <;> ring
theorem seg_left (a b : P2) : Seg a b a := ⟨0, le_refl _, zero_le_one, (at_zero a b).symm⟩
theorem seg_right (a b : P2) : Seg a b b := ⟨1, zero_le_one, le_refl _, (at_one a b).symm⟩
theorem seg_symm {a b x : P2} (h : Seg a b x) : Seg b a x := by
  obtain ⟨s, h0, h1, rfl⟩ := h
  exact ⟨1 - s, by linarith, by linarith, at_rev a b s⟩

theorem seg_sub {a b z x : P2} (hz : Seg a b z) (hx : Seg a z x) : Seg a b x := by
  obtain ⟨s, h0, h1, rfl⟩ := hz
  obtain ⟨t, k0, k1, rfl⟩ := hx
  exact ⟨t * s, mul_nonneg k0 h0, by nlinarith, at_at a b s t⟩

/-- Parts of a segment. -/
theorem seg_part {a b u v x : P2} (hu : Seg a b u) (hv : Seg a b v) (hx : Seg u v x) : Seg a b x := by
  obtain ⟨s, h0, h1, rfl⟩ := hu
  obtain ⟨t, k0, k1, rfl⟩ := hv
  obtain ⟨r, l0, l1, rfl⟩ := hx
  refine ⟨(1 - r) * s + r * t, by nlinarith [mul_nonneg (sub_nonneg.2 l1) h0, mul_nonneg l0 k0], ?_, ?_⟩
  · nlinarith [mul_nonneg (sub_nonneg.2 l1) (sub_nonneg.2 h1), mul_nonneg l0 (sub_nonneg.2 k1)]
  · ext <;> simp only [at'] <;> ring

/-- Coordinates with respect to two directions. -/
theorem basis {y z p : P2} (h : D y z p ≠ 0) (u : P2) :
    u = ⟨y.x + D y u p / D y z p * (z.x - y.x) + D y z u / D y z p * (p.x - y.x), y.y + D y u p / D y z p * (z.y - y.y) + D y z u / D y z p * (p.y - y.y)⟩ := by
  ext
  · field_simp; simp only [D]; ring
  · field_simp; simp only [D]; ring

/-- A point on a line. -/
theorem on_line {y z p u : P2} (h : D y z p ≠ 0) (hu : D y z u = 0) : u = at' y z (D y u p / D y z p) := by
  have := basis h u
  rw [hu] at this
  refine this.trans ?_
  ext <;> simp [at']

theorem two_zero {y u A B : P2} (hA : D y u A = 0) (hB : D y u B = 0) (h : D y A B ≠ 0) : u = y := by
  simp only [D] at hA hB h
  have h1 : (u.x - y.x) * ((A.x - y.x) * (B.y - y.y) - (A.y - y.y) * (B.x - y.x)) = 0 := by linear_combination (A.x - y.x) * hB - (B.x - y.x) * hA
  have h2 : (u.y - y.y) * ((A.x - y.x) * (B.y - y.y) - (A.y - y.y) * (B.x - y.x)) = 0 := by linear_combination (A.y - y.y) * hB - (B.y - y.y) * hA
  have h1 := (mul_eq_zero.1 h1).resolve_right h
  have h2 := (mul_eq_zero.1 h2).resolve_right h
  ext <;> linarith

/-- A way that begins in a quadrant stays there or leaves it. -/
theorem exit2 {f0 f1 g0 g1 : ℚ} (hf : 0 < f0) (hg : 0 < g0) : (0 < f1 ∧ 0 < g1) ∨ (∃ s, 0 < s ∧ s ≤ 1 ∧ (1 - s) * f0 + s * f1 = 0 ∧ 0 ≤ (1 - s) * g0 + s * g1) ∨
    ∃ s, 0 < s ∧ s ≤ 1 ∧ (1 - s) * g0 + s * g1 = 0 ∧ 0 ≤ (1 - s) * f0 + s * f1 := by
  have zero : ∀ {f0 f1 : ℚ}, 0 < f0 → f1 ≤ 0 → ∃ s, 0 < s ∧ s ≤ 1 ∧ (1 - s) * f0 + s * f1 = 0 := by
    intro f0 f1 h0 h1
    have hp : 0 < f0 - f1 := by linarith
    refine ⟨f0 / (f0 - f1), by positivity, by rw [div_le_one hp]; linarith, ?_⟩
    field_simp; ring
  by_cases h1 : 0 < f1
  · by_cases h2 : 0 < g1
    · exact .inl ⟨h1, h2⟩
    · obtain ⟨s, s0, s1, h⟩ := zero hg (not_lt.1 h2)
      exact .inr (.inr ⟨s, s0, s1, h, by nlinarith⟩)
  · obtain ⟨s, s0, s1, h⟩ := zero hf (not_lt.1 h1)
    by_cases h2 : 0 ≤ (1 - s) * g0 + s * g1
    · exact .inr (.inl ⟨s, s0, s1, h, h2⟩)
    · obtain ⟨r, r0, r1, h'⟩ := zero hg (not_le.1 h2).le
      refine .inr (.inr ⟨r * s, by positivity, by nlinarith, by linear_combination h', ?_⟩)
      have : (1 - r * s) * f0 + r * s * f1 = (1 - r) * f0 + r * ((1 - s) * f0 + s * f1) := by ring
      rw [this, h]
      nlinarith

/-! ## Turning a ray -/

/-- Between two free segments there is a vertex that can be seen. -/
theorem rotate (N : Net V S) {y z p : P2} (g : Gen V y) (hp : p ∈ V) (hD : 0 < D y z p) (free : ∀ x, Seg y z x → x ≠ z → ∀ c d, S c d → ¬ Seg c d x)
    (side : ∀ x, Seg z p x → x ≠ p → ∀ c d, S c d → Seg c d x → D z p c = 0 ∧ D z p d = 0) : ∃ v ∈ V, Vis S y v ∧ 0 < D y z v ∧ 0 ≤ D z p v ∧ 0 ≤ D y v p := by
  classical
  have hne : z ≠ p := by rintro rfl; rw [D_same2] at hD; exact lt_irrefl _ hD
  let U := V.filter fun v => 0 < D y z v ∧ 0 ≤ D z p v ∧ 0 ≤ D y v p
  have hU : p ∈ U := Finset.mem_filter.2 ⟨hp, hD, (D_same2 z p).ge, (D_same2 y p).ge⟩
  obtain ⟨v, hv, hmax⟩ := Finset.exists_max_image U (fun v => D y v p / D y z v) ⟨p, hU⟩
  obtain ⟨hvV, hv1, hv2, hv3⟩ := Finset.mem_filter.1 hv
  have first : ∀ w ∈ U, 0 ≤ D y v w := by
    intro w hw
    obtain ⟨-, hw1, -, -⟩ := Finset.mem_filter.1 hw
    have := hmax w hw
    rw [div_le_div_iff₀ hw1 hv1] at this
    have pl := plucker y z v w p
    by_contra hc
    have := mul_neg_of_pos_of_neg hD (not_le.1 hc)
    nlinarith
  refine ⟨v, hvV, ?_, hv1, hv2, hv3⟩
  rintro w ⟨s, s0, s1, hw⟩ hwv c d hcd hwc
  obtain ⟨hc, hd, hcne⟩ := N.ends hcd
  have slt : s < 1 := lt_of_le_of_ne s1 (by rintro rfl; exact hwv (hw.trans (at_one y v)))
  have spos : 0 < s := by
    refine lt_of_le_of_ne s0 ?_
    rintro rfl
    rw [at_zero] at hw
    subst hw
    obtain ⟨r, -, -, e⟩ := hwc
    apply g.2 c hc d hd hcne
    have : D c d w = 0 := by rw [e, D_at, D_same3, D_same2]; ring
    rwa [D_cyc]
  -- the end on the side of `z` would be before `v`
  have core : ∀ e ∈ V, (∀ x, Seg w e x → Seg c d x) → D y v e < 0 → False := by
    intro e heV hsub he
    have f0 : 0 < D y z w := by rw [hw, D_at, D_same3]; nlinarith
    have g0 : 0 < D z p w := by
      rw [hw, D_at]
      have : D z p y = D y z p := (D_cyc y z p).symm
      rw [this]; nlinarith [mul_nonneg s0 hv2, mul_pos (sub_pos.2 slt) hD]
    have onv : ∀ r, D y v (at' w e r) = r * D y v e := by
      intro r
      rw [D_at, hw, D_at, D_same3, D_same2]; ring
    rcases exit2 (f1 := D y z e) (g1 := D z p e) f0 g0 with ⟨k1, k2⟩ | ⟨r, r0, r1, k1, k2⟩ | ⟨r, r0, r1, k1, k2⟩
    · refine absurd (first e (Finset.mem_filter.2 ⟨heV, k1, k2.le, ?_⟩)) (not_le.2 he)
      have pl := plucker y z e v p
      rw [D_swap' y e v] at pl
      by_contra hn
      nlinarith [mul_nonneg k1.le hv3, mul_pos hD (neg_pos.2 he), mul_pos_of_neg_of_neg (not_le.1 hn) (neg_neg_of_pos hv1)]
    · rw [← D_at] at k1 k2
      have hu := on_line hD.ne' k1
      have hb0 : 0 < D y (at' w e r) p := by
        -- on the side of `z`
        have h1 := onv r
        rw [hu, D_at, D_same3] at h1
        have h2 : D y v z = - D y z v := D_swap' y v z
        rw [h2] at h1
        have : D y (at' w e r) p / D y z p * D y z v > 0 := by nlinarith [mul_pos r0 (neg_pos.2 he)]
        have : 0 < D y (at' w e r) p / D y z p := by
          by_contra hn
          nlinarith [mul_nonneg (neg_nonneg.2 (not_lt.1 hn)) hv1.le]
        rw [div_pos_iff_of_pos_right hD] at this
        exact this
      have hb1 : D y (at' w e r) p ≤ D y z p := by
        have := D_sum y z p (at' w e r)
        have e1 : D (at' w e r) z p = D z p (at' w e r) := D_cyc _ _ _
        have e2 : D (at' w e r) p y = D y (at' w e r) p := (D_cyc _ _ _).symm
        have e3 : D (at' w e r) y z = D y z (at' w e r) := D_cyc _ _ _
        rw [e1, e2, e3, k1] at this
        linarith
      have hseg : Seg y z (at' w e r) := ⟨_, by positivity, by rw [div_le_one hD]; exact hb1, hu⟩
      have hon := hsub _ ⟨r, r0.le, r1, rfl⟩
      by_cases hz : at' w e r = z
      · rw [hz] at hon
        obtain ⟨h1, h2⟩ := side z (seg_left z p) hne c d hcd hon
        obtain ⟨q, -, -, eq⟩ := hwc
        rw [eq, D_at, h1, h2] at g0
        simp at g0
      · exact free _ hseg hz c d hcd hon
    · rw [← D_at] at k1 k2
      have hzp : D z p y ≠ 0 := by rw [← D_cyc]; exact hD.ne'
      have hu := on_line hzp k1
      generalize hγ : D z (at' w e r) y / D z p y = γ at hu
      have hγ0 : 0 ≤ γ := by
        rw [← hγ, ← D_cyc y z p, ← D_cyc y z]
        exact div_nonneg k2 hD.le
      have hγ1 : γ < 1 := by
        by_contra hn
        have h1 := onv r
        rw [hu, D_at, D_swap' y v z] at h1
        nlinarith [mul_nonneg (sub_nonneg.2 (not_lt.1 hn)) hv1.le, mul_nonneg hγ0 hv3, mul_pos r0 (neg_pos.2 he)]
      have hup : at' w e r ≠ p := by
        intro h
        rw [hu] at h
        have h1 : (1 - γ) * (p.x - z.x) = 0 := by have := congrArg P2.x h; simp only [at'] at this; linarith
        have h2 : (1 - γ) * (p.y - z.y) = 0 := by have := congrArg P2.y h; simp only [at'] at this; linarith
        have h1 := (mul_eq_zero.1 h1).resolve_left (by linarith)
        have h2 := (mul_eq_zero.1 h2).resolve_left (by linarith)
        exact hne (by ext <;> linarith)
      obtain ⟨h1, h2⟩ := side _ ⟨γ, hγ0, hγ1.le, hu⟩ hup c d hcd (hsub _ ⟨r, r0.le, r1, rfl⟩)
      obtain ⟨q, -, -, eq⟩ := hwc
      rw [eq, D_at, h1, h2] at g0
      simp at g0
  obtain ⟨r, r0, r1, hr⟩ := id hwc
  have hzero : (1 - r) * D y v c + r * D y v d = 0 := by rw [← D_at, ← hr, hw, D_at, D_same3, D_same2]; ring
  have notc : c ≠ v := by
    rintro rfl
    rw [D_same2, mul_zero, zero_add] at hzero
    rcases mul_eq_zero.1 hzero with h | h
    · rw [h, at_zero] at hr; exact hwv hr
    · exact g.2 c hc d hd hcne h
  have notd : d ≠ v := by
    rintro rfl
    rw [D_same2, mul_zero, add_zero] at hzero
    rcases mul_eq_zero.1 hzero with h | h
    · rw [show r = 1 by linarith, at_one] at hr; exact hwv hr
    · exact g.2 d hd c hc hcne.symm h
  have nc := g.2 v hvV c hc notc.symm
  rcases lt_or_gt_of_ne nc with h | h
  · exact core c hc (fun x hx => seg_part hwc (seg_left c d) hx) h
  · refine core d hd (fun x hx => seg_part hwc (seg_right c d) hx) ?_
    have nd := g.2 v hvV d hd notd.symm
    by_contra hn
    have hdp := lt_of_le_of_ne (not_lt.1 hn) nd.symm
    rcases eq_or_lt_of_le r0 with rfl | hr0
    · linarith
    · nlinarith [mul_nonneg (sub_nonneg.2 r1) h.le, mul_pos hr0 hdp]

/-! ## The other direction -/

/-- Reflection. -/
def mir (a : P2) : P2 := ⟨a.x, -a.y⟩

theorem mir_mir (a : P2) : mir (mir a) = a := by simp [mir]
theorem D_mir (a b c : P2) : D (mir a) (mir b) (mir c) = -D a b c := by simp only [D, mir]; ring
theorem mir_at (a b : P2) (s : ℚ) : mir (at' a b s) = at' (mir a) (mir b) s := by ext <;> simp only [mir, at'] <;> ring
theorem mir_inj {a b : P2} (h : mir a = mir b) : a = b := by rw [← mir_mir a, h, mir_mir]

theorem seg_mir {a b x : P2} (h : Seg a b x) : Seg (mir a) (mir b) (mir x) := by
  obtain ⟨s, s0, s1, rfl⟩ := h
  exact ⟨s, s0, s1, mir_at a b s⟩

theorem mem_mir {a : P2} : a ∈ V.image mir ↔ mir a ∈ V := by
  constructor
  · intro h
    obtain ⟨b, hb, rfl⟩ := Finset.mem_image.1 h
    rwa [mir_mir]
  · exact fun h => Finset.mem_image.2 ⟨_, h, mir_mir a⟩

theorem net_mir (N : Net V S) : Net (V.image mir) (fun c d => S (mir c) (mir d)) where
  ends h := ⟨mem_mir.2 (N.ends h).1, mem_mir.2 (N.ends h).2.1, fun e => (N.ends h).2.2 (e ▸ rfl)⟩
  clear h hv hs := (N.clear h (mem_mir.1 hv) (seg_mir hs)).imp mir_inj mir_inj
  apart {c d c' d' x} h h' hs hs' hx := by
    obtain ⟨h1, h2⟩ := N.apart h h' (seg_mir hs) (seg_mir hs') (fun k => hx (mem_mir.2 k))
    rw [D_mir] at h1 h2
    exact ⟨neg_eq_zero.1 h1, neg_eq_zero.1 h2⟩

theorem gen_mir {y : P2} (g : Gen V y) : Gen (V.image mir) (mir y) := by
  refine ⟨fun h => g.1 (by have := mem_mir.1 h; rwa [mir_mir] at this), fun a ha b hb hne h => ?_⟩
  refine g.2 _ (mem_mir.1 ha) _ (mem_mir.1 hb) (fun e => hne (mir_inj e)) ?_
  have := D_mir y (mir a) (mir b)
  rw [mir_mir, mir_mir, h] at this
  linarith

/-- The same in the other direction. -/
theorem rotate' (N : Net V S) {y z p : P2} (g : Gen V y) (hp : p ∈ V) (hD : D y z p < 0) (free : ∀ x, Seg y z x → x ≠ z → ∀ c d, S c d → ¬ Seg c d x)
    (side : ∀ x, Seg z p x → x ≠ p → ∀ c d, S c d → Seg c d x → D z p c = 0 ∧ D z p d = 0) : ∃ v ∈ V, Vis S y v ∧ D y z v < 0 ∧ D z p v ≤ 0 ∧ D y v p ≤ 0 := by
  have back : ∀ {a b x : P2}, Seg (mir a) (mir b) x → Seg a b (mir x) := fun h => by have := seg_mir h; rwa [mir_mir, mir_mir] at this
  have back' : ∀ {a b x : P2}, Seg a b x → Seg (mir a) (mir b) (mir x) := seg_mir
  obtain ⟨v, hv, vis, h1, h2, h3⟩ := rotate (net_mir N) (z := mir z) (p := mir p) (gen_mir g) (mem_mir.2 (by rwa [mir_mir])) (by rw [D_mir]; linarith)
    (fun x hx hne c d hcd hs => free (mir x) (back hx) (fun e => hne (by rw [← e, mir_mir])) _ _ hcd (seg_mir hs))
    (fun x hx hne c d hcd hs => by
      obtain ⟨k1, k2⟩ := side (mir x) (back hx) (fun e => hne (by rw [← e, mir_mir])) _ _ hcd (seg_mir hs)
      have e1 := D_mir z p (mir c)
      have e2 := D_mir z p (mir d)
      rw [mir_mir] at e1 e2
      exact ⟨by rw [e1, k1, neg_zero], by rw [e2, k2, neg_zero]⟩)
  have em : ∀ a b : P2, D (mir a) (mir b) v = -D a b (mir v) := fun a b => by have := D_mir a b (mir v); rwa [mir_mir] at this
  refine ⟨mir v, mem_mir.1 hv, ?_, by have := em y z; linarith, by have := em z p; linarith, ?_⟩
  · intro x hx hne c d hcd hs
    refine vis (mir x) ?_ (fun e => hne (by rw [← e, mir_mir])) (mir c) (mir d) (by show S _ _; rwa [mir_mir, mir_mir]) (seg_mir hs)
    have := seg_mir hx
    rwa [mir_mir] at this
  · have := D_mir y (mir v) p
    rw [mir_mir] at this
    linarith

/-- Both directions. -/
theorem turn (N : Net V S) {y z p : P2} (g : Gen V y) (hp : p ∈ V) (hD : D y z p ≠ 0) (free : ∀ x, Seg y z x → x ≠ z → ∀ c d, S c d → ¬ Seg c d x)
    (side : ∀ x, Seg z p x → x ≠ p → ∀ c d, S c d → Seg c d x → D z p c = 0 ∧ D z p d = 0) :
    ∃ v ∈ V, Vis S y v ∧ ∃ r s t : ℚ, 0 ≤ r ∧ 0 ≤ s ∧ 0 < t ∧ r + s + t = 1 ∧ v = ⟨r * y.x + s * z.x + t * p.x, r * y.y + s * z.y + t * p.y⟩ := by
  have fin : ∀ v, v = (⟨(D z p v / D y z p) * y.x + (D y v p / D y z p) * z.x + (D y z v / D y z p) * p.x, (D z p v / D y z p) * y.y + (D y v p / D y z p) * z.y + (D y z v / D y z p) * p.y⟩ : P2) := by
    intro v
    ext
    · field_simp; simp only [D]; ring
    · field_simp; simp only [D]; ring
  have one : ∀ v, D z p v / D y z p + D y v p / D y z p + D y z v / D y z p = 1 := by
    intro v
    field_simp; simp only [D]; ring
  rcases lt_or_gt_of_ne hD with h | h
  · obtain ⟨v, hv, vis, h1, h2, h3⟩ := rotate' N g hp h free side
    exact ⟨v, hv, vis, _, _, _, div_nonneg_of_nonpos h2 h.le, div_nonneg_of_nonpos h3 h.le, div_pos_of_neg_of_neg h1 h, one v, fin v⟩
  · obtain ⟨v, hv, vis, h1, h2, h3⟩ := rotate N g hp h free side
    exact ⟨v, hv, vis, _, _, _, div_nonneg h2 h.le, div_nonneg h3 h.le, div_pos h1 h, one v, fin v⟩

/-! ## The first constraint on the way -/

theorem Gen.off (N : Net V S) {y : P2} (g : Gen V y) {c d : P2} (h : S c d) : D c d y ≠ 0 := by
  rw [← D_cyc]
  exact g.2 c (N.ends h).1 d (N.ends h).2.1 (N.ends h).2.2

theorem seg_line {c d x : P2} (h : Seg c d x) : D c d x = 0 := by
  obtain ⟨r, -, -, rfl⟩ := h
  rw [D_at, D_same3, D_same2]; ring

theorem first_hit (N : Net V S) {y x : P2} (g : Gen V y) (hx : ∃ u, Seg y x u ∧ ∃ c d, S c d ∧ Seg c d u) :
    ∃ z c d, S c d ∧ Seg c d z ∧ Seg y x z ∧ z ≠ y ∧ (∀ u, Seg y z u → u ≠ z → ∀ c d, S c d → ¬ Seg c d u) ∧ ∀ u, Seg y x u → (∃ c d, S c d ∧ Seg c d u) → Seg u x z → z = u := by
  classical
  let f : P2 × P2 → ℚ := fun e => D e.1 e.2 y / (D e.1 e.2 y - D e.1 e.2 x)
  have param : ∀ c d, S c d → ∀ s, Seg c d (at' y x s) → s = f (c, d) := by
    intro c d h s hs
    have := seg_line hs
    rw [D_at] at this
    have off := g.off N h
    have ne : D c d y - D c d x ≠ 0 := by
      intro k
      apply off
      linear_combination this + s * k
    show s = D c d y / (D c d y - D c d x)
    rw [eq_div_iff ne]
    linarith
  let O := (V ×ˢ V).filter fun e => S e.1 e.2 ∧ ∃ u, Seg y x u ∧ Seg e.1 e.2 u
  have hO : O.Nonempty := by
    obtain ⟨u, hu, c, d, hcd, hs⟩ := hx
    exact ⟨(c, d), Finset.mem_filter.2 ⟨Finset.mem_product.2 ⟨(N.ends hcd).1, (N.ends hcd).2.1⟩, hcd, u, hu, hs⟩⟩
  obtain ⟨⟨c, d⟩, hcd, hmin⟩ := Finset.exists_min_image O f hO
  obtain ⟨-, hS, z, hz, hzs⟩ := Finset.mem_filter.1 hcd
  obtain ⟨s, s0, s1, rfl⟩ := hz
  have hs := param c d hS s hzs
  have least : ∀ t, 0 ≤ t → t ≤ 1 → (∃ c d, S c d ∧ Seg c d (at' y x t)) → s ≤ t := by
    rintro t t0 t1 ⟨c', d', h', k⟩
    rw [param c' d' h' t k, hs]
    exact hmin (c', d') (Finset.mem_filter.2 ⟨Finset.mem_product.2 ⟨(N.ends h').1, (N.ends h').2.1⟩, h', _, ⟨t, t0, t1, rfl⟩, k⟩)
  refine ⟨at' y x s, c, d, hS, hzs, ⟨s, s0, s1, rfl⟩, ?_, ?_, ?_⟩
  · intro e
    have := seg_line hzs
    rw [e] at this
    exact g.off N hS this
  · rintro u ⟨t, t0, t1, rfl⟩ hne c' d' h' k
    rw [at_at] at k hne
    have := least (t * s) (mul_nonneg t0 s0) (by nlinarith) ⟨c', d', h', k⟩
    apply hne
    congr 1
    nlinarith
  · rintro u ⟨t, t0, t1, rfl⟩ hu ⟨r, r0, r1, e⟩
    have hle := least t t0 t1 hu
    by_cases hyx : y = x
    · subst hyx; ext <;> simp [at']
    have : s = t + r * (1 - t) := by
      by_contra hn
      apply hyx
      have e1 : (s - (t + r * (1 - t))) * (x.x - y.x) = 0 := by have := congrArg P2.x e; simp only [at'] at this; linarith
      have e2 : (s - (t + r * (1 - t))) * (x.y - y.y) = 0 := by have := congrArg P2.y e; simp only [at'] at this; linarith
      have e1 := (mul_eq_zero.1 e1).resolve_left (sub_ne_zero.2 hn)
      have e2 := (mul_eq_zero.1 e2).resolve_left (sub_ne_zero.2 hn)
      ext <;> linarith
    have : s = t := le_antisymm hle (by nlinarith [mul_nonneg r0 (sub_nonneg.2 t1)])
    rw [this]

/-- Only collinear constraints meet a constraint on the way to its end. -/
theorem side_ok (N : Net V S) {c d z e : P2} (h : S c d) (hz : Seg c d z) (hzV : z ∉ V) (he : e = c ∨ e = d) :
    ∀ x, Seg z e x → x ≠ e → ∀ c' d', S c' d' → Seg c' d' x → D z e c' = 0 ∧ D z e d' = 0 := by
  intro x hx hne c' d' h' hx'
  have hec : Seg c d e := by rcases he with rfl | rfl; exacts [seg_left _ _, seg_right _ _]
  have hxc := seg_part hz hec hx
  have hxV : x ∉ V := by
    intro k
    rcases N.clear h k hxc with rfl | rfl
    · rcases he with rfl | rfl
      · exact hne rfl
      · -- the other end, so `z` is a vertex
        apply hzV
        obtain ⟨r, r0, r1, rfl⟩ := hz
        obtain ⟨q, q0, q1, hxe⟩ := hx
        have hne' := (N.ends h).2.2
        have k0 : r + q * (1 - r) = 0 := by
          by_contra hn
          apply hne'
          have e1 : (r + q * (1 - r)) * (e.x - x.x) = 0 := by have := congrArg P2.x hxe; simp only [at'] at this; linarith
          have e2 : (r + q * (1 - r)) * (e.y - x.y) = 0 := by have := congrArg P2.y hxe; simp only [at'] at this; linarith
          have e1 := (mul_eq_zero.1 e1).resolve_left hn
          have e2 := (mul_eq_zero.1 e2).resolve_left hn
          ext <;> linarith
        have : r = 0 := by nlinarith [mul_nonneg q0 (sub_nonneg.2 r1)]
        rw [this, at_zero]
        exact k
    · rcases he with rfl | rfl
      · apply hzV
        obtain ⟨r, r0, r1, rfl⟩ := hz
        obtain ⟨q, q0, q1, hxe⟩ := hx
        have hne' := (N.ends h).2.2
        have k0 : (1 - r) + q * r = 0 := by
          by_contra hn
          apply hne'
          have e1 : ((1 - r) + q * r) * (e.x - x.x) = 0 := by have := congrArg P2.x hxe; simp only [at'] at this; linarith
          have e2 : ((1 - r) + q * r) * (e.y - x.y) = 0 := by have := congrArg P2.y hxe; simp only [at'] at this; linarith
          have e1 := (mul_eq_zero.1 e1).resolve_left hn
          have e2 := (mul_eq_zero.1 e2).resolve_left hn
          ext <;> linarith
        have : r = 1 := by nlinarith [mul_nonneg q0 r0]
        rw [this, at_one]
        exact k
      · exact hne rfl
  obtain ⟨k1, k2⟩ := N.apart h h' hxc hx' hxV
  have hcd := (N.ends h).2.2
  -- everything is on the line through `c` and `d`
  have col : ∀ w, D c d w = 0 → D z e w = 0 := by
    intro w hw
    have e0 : D c d e = 0 := seg_line hec
    obtain ⟨r, -, -, rfl⟩ := hz
    simp only [D, at'] at *
    rcases he with rfl | rfl
    · linear_combination -r * hw
    · linear_combination (1 - r) * hw
  exact ⟨col _ k1, col _ k2⟩

/-! ## Vertices around a point -/

/-- Inside a triangle. -/
structure Inn (a b c y : P2) : Prop where
  ab : 0 < D a b y
  bc : 0 < D b c y
  ca : 0 < D c a y

/-- Visible vertices to the left of every direction. -/
theorem left_visible (N : Net V S) {A B C y u : P2} (hA : A ∈ V) (hB : B ∈ V) (hC : C ∈ V) (g : Gen V y) (hy : Inn A B C y) (hu : u ≠ y) : ∃ w ∈ V, Vis S y w ∧ 0 < D y u w := by
  have hX : ∃ X ∈ V, 0 < D y u X := by
    by_contra hn
    push Not at hn
    have a0 := hn A hA
    have b0 := hn B hB
    have c0 := hn C hC
    have id : D B C y * D y u A + D C A y * D y u B + D A B y * D y u C = 0 := by simp only [D]; ring
    have pa : 0 ≤ D B C y * -D y u A := mul_nonneg hy.bc.le (by linarith)
    have pb : 0 ≤ D C A y * -D y u B := mul_nonneg hy.ca.le (by linarith)
    have pc : 0 ≤ D A B y * -D y u C := mul_nonneg hy.ab.le (by linarith)
    have za := (mul_eq_zero.1 (show D B C y * D y u A = 0 by linarith)).resolve_left hy.bc.ne'
    have zb := (mul_eq_zero.1 (show D C A y * D y u B = 0 by linarith)).resolve_left hy.ca.ne'
    exact hu (two_zero za zb (by rw [D_cyc]; exact hy.ab.ne'))
  obtain ⟨X, hXV, hX⟩ := hX
  by_cases hvis : Vis S y X
  · exact ⟨X, hXV, hvis, hX⟩
  simp only [Vis, not_forall, not_not] at hvis
  obtain ⟨x0, hx0, hx0X, c0, d0, hcd0, hs0⟩ := hvis
  obtain ⟨z, c, d, hcd, hzs, hzX, hzy, free, -⟩ := first_hit N g ⟨x0, hx0, c0, d0, hcd0, hs0⟩
  have hpos : 0 < D y u z := by
    obtain ⟨s, s0, s1, rfl⟩ := hzX
    have : s ≠ 0 := by rintro rfl; exact hzy (at_zero _ _)
    rw [D_at, D_same3]
    have := lt_of_le_of_ne s0 this.symm
    nlinarith [mul_pos this hX]
  by_cases hzV : z ∈ V
  · exact ⟨z, hzV, free, hpos⟩
  have he : ∃ e, (e = c ∨ e = d) ∧ D y u z ≤ D y u e := by
    obtain ⟨r, r0, r1, rfl⟩ := hzs
    rw [D_at]
    by_cases h : D y u d ≤ D y u c
    · exact ⟨c, .inl rfl, by nlinarith⟩
    · exact ⟨d, .inr rfl, by nlinarith [not_le.1 h]⟩
  obtain ⟨e, hec, hee⟩ := he
  obtain ⟨hcV, hdV, hne⟩ := N.ends hcd
  have heV : e ∈ V := by rcases hec with rfl | rfl; exacts [hcV, hdV]
  have hD : D y z e ≠ 0 := by
    have k := g.2 c hcV d hdV hne
    have hzne : z ≠ e := fun h => hzV (h ▸ heV)
    obtain ⟨r, r0, r1, rfl⟩ := hzs
    rcases hec with rfl | rfl
    · have : D y (at' e d r) e = -(r * D y e d) := by simp only [D, at']; ring
      rw [this]
      exact neg_ne_zero.2 (mul_ne_zero (by rintro rfl; exact hzne (at_zero _ _)) k)
    · have : D y (at' c e r) e = (1 - r) * D y c e := by simp only [D, at']; ring
      rw [this]
      refine mul_ne_zero (fun h => hzne ?_) k
      rw [show r = 1 by linarith, at_one]
  obtain ⟨v, hv, vis, r, s, t, r0, s0, t0, one, rfl⟩ := turn N g heV hD free (side_ok N hcd hzs hzV hec)
  refine ⟨_, hv, vis, ?_⟩
  have : D y u ⟨r * y.x + s * z.x + t * e.x, r * y.y + s * z.y + t * e.y⟩ = s * D y u z + t * D y u e := by
    have : r = 1 - s - t := by linarith
    subst this
    simp only [D]; ring
  rw [this]
  nlinarith [mul_nonneg s0 hpos.le, mul_pos t0 (lt_of_lt_of_le hpos hee)]

/-- A triple of visible vertices around the point. -/
structure Around (V : Finset P2) (S : P2 → P2 → Prop) (y a b c : P2) : Prop where
  ha : a ∈ V
  hb : b ∈ V
  hc : c ∈ V
  va : Vis S y a
  vb : Vis S y b
  vc : Vis S y c
  ab : 0 < D y a b
  bc : 0 < D y b c
  ca : 0 < D y c a

theorem around (N : Net V S) {A B C y : P2} (hA : A ∈ V) (hB : B ∈ V) (hC : C ∈ V) (g : Gen V y) (hy : Inn A B C y) : ∃ a b c, Around V S y a b c := by
  classical
  obtain ⟨a, ha, va, -⟩ := left_visible N hA hB hC g hy (u := A) (by rintro rfl; exact g.1 hA)
  have hay : a ≠ y := by rintro rfl; exact g.1 ha
  obtain ⟨w, hw, vw, haw⟩ := left_visible N hA hB hC g hy hay
  let f : P2 → ℚ := fun w => ((a.x - y.x) * (w.x - y.x) + (a.y - y.y) * (w.y - y.y)) / D y a w
  obtain ⟨b, hb, hmin⟩ := Finset.exists_min_image (V.filter fun w => Vis S y w ∧ 0 < D y a w) f ⟨w, Finset.mem_filter.2 ⟨hw, vw, haw⟩⟩
  obtain ⟨hbV, vb, hab⟩ := Finset.mem_filter.1 hb
  have last : ∀ w ∈ V, Vis S y w → 0 < D y a w → D y b w ≤ 0 := by
    intro w hw vw haw
    have := hmin w (Finset.mem_filter.2 ⟨hw, vw, haw⟩)
    simp only [f] at this
    rw [div_le_div_iff₀ hab haw] at this
    have id : ((a.x - y.x) * (b.x - y.x) + (a.y - y.y) * (b.y - y.y)) * D y a w - ((a.x - y.x) * (w.x - y.x) + (a.y - y.y) * (w.y - y.y)) * D y a b =
        ((a.x - y.x) ^ 2 + (a.y - y.y) ^ 2) * D y b w := by simp only [D]; ring
    have pos : 0 < (a.x - y.x) ^ 2 + (a.y - y.y) ^ 2 := by
      by_contra hn
      have h1 : (a.x - y.x) ^ 2 = 0 := le_antisymm (by nlinarith [sq_nonneg (a.y - y.y)]) (sq_nonneg _)
      have h2 : (a.y - y.y) ^ 2 = 0 := le_antisymm (by nlinarith [sq_nonneg (a.x - y.x)]) (sq_nonneg _)
      have h1 := pow_eq_zero_iff (two_ne_zero) |>.1 h1
      have h2 := pow_eq_zero_iff (two_ne_zero) |>.1 h2
      exact hay (by ext <;> linarith)
    by_contra hn
    nlinarith [mul_pos pos (not_le.1 hn)]
  have hby : b ≠ y := by rintro rfl; exact g.1 hbV
  obtain ⟨c, hc, vc, hbc⟩ := left_visible N hA hB hC g hy hby
  refine ⟨a, b, c, ha, hbV, hc, va, vb, vc, hab, hbc, ?_⟩
  have h1 : ¬ 0 < D y a c := fun h => absurd (last c hc vc h) (not_le.2 hbc)
  have h2 : a ≠ c := by rintro rfl; rw [D_swap' y b a] at hbc; linarith
  have := g.2 a ha c hc h2
  rw [D_swap' y c a]
  have := lt_of_le_of_ne (not_lt.1 h1) this
  linarith

end Kigumi.Plane
