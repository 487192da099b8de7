import Verif.Proofs.PlaneCover

/-!
# Constrained Delaunay triangulations in a plane exist
-/
namespace Kigumi.Plane

variable {V : Finset P2} {S : P2 → P2 → Prop} {F : Form} {h1 : P2 → ℚ}

/-! ## Lines -/

theorem line_at {a b d : P2} (hab : a ≠ b) (h : D a b d = 0) : ∃ q, d = at' a b q := by
  simp only [D] at h
  by_cases hx : b.x - a.x = 0
  · have hy : b.y - a.y ≠ 0 := fun h => hab (by ext <;> linarith)
    refine ⟨(d.y - a.y) / (b.y - a.y), ?_⟩
    rw [hx, zero_mul, zero_sub, neg_eq_zero] at h
    have := (mul_eq_zero.1 h).resolve_left hy
    ext
    · simp only [at', hx]; linarith
    · simp only [at']; field_simp; ring
  · refine ⟨(d.x - a.x) / (b.x - a.x), ?_⟩
    ext
    · simp only [at']; field_simp; ring
    · simp only [at']; field_simp; linear_combination h

theorem at_mix (a b : P2) (s t r : ℚ) : at' (at' a b s) (at' a b t) r = at' a b ((1 - r) * s + r * t) := by
  ext <;> simp only [at'] <;> ring

/-- Of two overlapping edges without vertices inside, the ends of the one are on the other. -/
theorem line_end {a b d e : P2} {x y r : ℚ} (hab : a ≠ b) (hd : ∀ v, v = at' a b x ∨ v = at' a b y → Seg a b v → v = a ∨ v = b) (ed : d = at' a b x) (ee : e = at' a b y)
    (r0 : 0 < r) (r1 : r < 1) (h0 : 0 < (1 - r) * x + r * y) (h1 : (1 - r) * x + r * y < 1) : Seg d e a := by
  have out : ∀ {v : P2} {z : ℚ}, v = at' a b z → (v = at' a b x ∨ v = at' a b y) → 0 < z → z < 1 → False := by
    intro v z ev hv z0 z1
    rcases hd v hv ⟨z, z0.le, z1.le, ev⟩ with h | h
    · rw [ev] at h
      have := at_inj hab (h.trans (at_zero a b).symm)
      linarith
    · rw [ev] at h
      have := at_inj hab (h.trans (at_one a b).symm)
      linarith
  have key : ∀ {t : ℚ}, 0 ≤ t → t ≤ 1 → (1 - t) * x + t * y = 0 → Seg d e a := by
    intro t t0 t1 h
    refine ⟨t, t0, t1, ?_⟩
    rw [ed, ee, at_mix, h, at_zero]
  rcases le_or_gt x 0 with hx | hx
  · have hy : 0 < y := by
      by_contra hn
      nlinarith [mul_nonneg r0.le (neg_nonneg.2 (not_lt.1 hn)), mul_nonneg (sub_nonneg.2 r1.le) (neg_nonneg.2 hx)]
    have hp : 0 < y - x := by linarith
    refine key (t := -x / (y - x)) (div_nonneg (by linarith) hp.le) ((div_le_one hp).2 (by linarith)) ?_
    field_simp; ring
  rcases le_or_gt y 0 with hy | hy
  · have hp : 0 < x - y := by linarith
    refine key (t := x / (x - y)) (div_nonneg hx.le hp.le) ((div_le_one hp).2 (by linarith)) ?_
    field_simp; ring
  · exfalso
    rcases lt_or_ge x 1 with k | k
    · exact out rfl (.inl rfl) hx k
    rcases lt_or_ge y 1 with k' | k'
    · exact out rfl (.inr rfl) hy k'
    nlinarith [mul_nonneg (sub_nonneg.2 r1.le) (sub_nonneg.2 k), mul_nonneg r0.le (sub_nonneg.2 k')]

/-- On a side of a triangle, but at no corner. -/
structure Edge (a b c x : P2) : Prop where
  ab : D a b x = 0
  bc : 0 < D b c x
  ca : 0 < D c a x

theorem Edge.at {a b c x : P2} (h : Edge a b c x) : 0 < D a b c ∧ a ≠ b ∧ ∃ s, 0 < s ∧ s < 1 ∧ x = at' a b s := by
  have hs := D_sum a b c x
  rw [D_cyc x b c, D_cyc x c a, D_cyc x a b, h.ab] at hs
  have hp : 0 < D a b c := by have := h.bc; have := h.ca; linarith
  have hab : a ≠ b := by rintro rfl; exact hp.ne' (D_same1 _ _)
  obtain ⟨s, rfl⟩ := line_at hab h.ab
  have k1 := h.bc
  have k2 := h.ca
  rw [D_at, D_same3, ← D_cyc a b c] at k1
  rw [D_at, D_same2, D_cyc, ] at k2
  refine ⟨hp, hab, s, ?_, ?_, rfl⟩
  · by_contra hn
    nlinarith [mul_nonneg (neg_nonneg.2 (not_lt.1 hn)) hp.le]
  · by_contra hn
    nlinarith [mul_nonneg (sub_nonneg.2 (not_lt.1 hn)) hp.le]

theorem edge_of {a b c x : P2} (h : Good V S F h1 a b c) (hc : Cl a b c x) (hx : x ∉ V) (hi : ¬ Inn a b c x) : Edge a b c x ∨ Edge b c a x ∨ Edge c a b x := by
  have two : ∀ {a b c : P2}, Good V S F h1 a b c → D b c x = 0 → D c a x = 0 → False := fun h k1 k2 => hx (by rw [corner_of h.pos.ne' k1 k2]; exact h.hc)
  rcases eq_or_lt_of_le hc.ab with e1 | e1
  · refine .inl ⟨e1.symm, lt_of_le_of_ne hc.bc fun e => two h.cyc.cyc e1.symm e.symm, lt_of_le_of_ne hc.ca fun e => two h.cyc e.symm e1.symm⟩
  rcases eq_or_lt_of_le hc.bc with e2 | e2
  · exact .inr (.inl ⟨e2.symm, lt_of_le_of_ne hc.ca fun e => two h e2.symm e.symm, e1⟩)
  rcases eq_or_lt_of_le hc.ca with e3 | e3
  · exact .inr (.inr ⟨e3.symm, e1, e2⟩)
  · exact absurd ⟨e1, e2, e3⟩ hi

theorem cl_seg {a b c p q x : P2} (hp : Cl a b c p) (hq : Cl a b c q) (hx : Seg p q x) : Cl a b c x := by
  obtain ⟨s, s0, s1, rfl⟩ := hx
  have : ∀ {u v : ℚ}, 0 ≤ u → 0 ≤ v → 0 ≤ (1 - s) * u + s * v := fun h k => add_nonneg (mul_nonneg (sub_nonneg.2 s1) h) (mul_nonneg s0 k)
  exact ⟨by rw [D_at]; exact this hp.ab hq.ab, by rw [D_at]; exact this hp.bc hq.bc, by rw [D_at]; exact this hp.ca hq.ca⟩

/-- The ends of an edge are on the other edge through a point of it. -/
theorem edge_ends (hF : F.Pos) {a b c x d e : P2} (h : Good V S F h1 a b c) (hx : Edge a b c x) (hd : d ∈ V) (he : e ∈ V) {r : ℚ} (r0 : 0 < r) (r1 : r < 1)
    (hr : x = at' d e r) (k1 : D a b d = 0) (k2 : D a b e = 0) : Seg d e a ∧ Seg d e b := by
  obtain ⟨hp, hab, s, s0, s1, hs⟩ := hx.at
  obtain ⟨u, hu⟩ := line_at hab k1
  obtain ⟨v, hv⟩ := line_at hab k2
  have hrs : s = (1 - r) * u + r * v := at_inj hab (by rw [← at_mix, ← hu, ← hv, ← hr, hs])
  have clear : ∀ w ∈ V, D a b w = 0 → Seg a b w → w = a ∨ w = b := by
    intro w hw hz hsw
    rcases h.vertex hF hw (cl_seg (cl_a hp) (cl_b hp) hsw) with e | e | e
    · exact .inl e
    · exact .inr e
    · rw [e] at hz; exact absurd hz hp.ne'
  refine ⟨line_end hab ?_ hu hv r0 r1 (by rw [← hrs]; exact s0) (by rw [← hrs]; exact s1), ?_⟩
  · rintro w (rfl | rfl) hw
    · rw [← hu] at *; exact clear d hd k1 hw
    · rw [← hv] at *; exact clear e he k2 hw
  · rw [at_rev] at hu hv
    refine line_end hab.symm ?_ hu hv r0 r1 (by nlinarith) (by nlinarith)
    rintro w (rfl | rfl) hw
    · rw [← hu] at *; exact (clear d hd k1 (seg_symm hw)).symm
    · rw [← hv] at *; exact (clear e he k2 (seg_symm hw)).symm

theorem edge_meet (hF : F.Pos) {a b c d e f x : P2} (h : Good V S F h1 a b c) (k : Good V S F h1 d e f) (hx : Edge a b c x) (kx : Edge d e f x)
    (no : ∀ y, Inn a b c y → ¬ Inn d e f y) : Seg d e a ∧ Seg d e b := by
  obtain ⟨kp, hde, r, r0, r1, hr⟩ := kx.at
  have step' : ∀ g, 0 < D a b g → 0 < D d e g → False := by
    intro g g1 g2
    obtain ⟨t, -, -, t1, t2⟩ := step (a := a) (b := b) (c := c) (d := d) (e := e) (f := f) (x := x) (g := g) (.inr ⟨hx.ab.ge, g1⟩) (.inl hx.bc) (.inl hx.ca) (.inr ⟨kx.ab.ge, g2⟩)
      (.inl kx.bc) (.inl kx.ca)
    exact no _ t1 t2
  have one : ∀ u, D d e u = 0 → ¬ 0 < D a b u := by
    intro u hu hpos
    obtain ⟨t, t0, -, ht⟩ := small1 (g := D a b f) hpos
    refine step' (at' u f t) ?_ ?_
    · rw [D_at]; exact ht t t0 (le_refl _)
    · rw [D_at, hu]; nlinarith [mul_pos t0 kp]
  have hz : (1 - r) * D a b d + r * D a b e = 0 := by rw [← D_at, ← hr, hx.ab]
  have n1 := not_lt.1 (one d (D_same3 _ _))
  have n2 := not_lt.1 (one e (D_same2 _ _))
  have p1 := mul_nonneg (sub_nonneg.2 r1.le) (neg_nonneg.2 n1)
  have p2 := mul_nonneg r0.le (neg_nonneg.2 n2)
  have z1 := (mul_eq_zero.1 (show (1 - r) * D a b d = 0 by linarith)).resolve_left (by linarith)
  have z2 := (mul_eq_zero.1 (show r * D a b e = 0 by linarith)).resolve_left r0.ne'
  exact edge_ends hF h hx k.ha k.hb r0 r1 hr z1 z2

/-- Triangles meet in common corners only, and in the edges between them. -/
theorem Good.meet (hF : F.Pos) (hg : GenH V h1) {a b c d e f x : P2} (h : Good V S F h1 a b c) (k : Good V S F h1 d e f) (hx : Cl a b c x) (kx : Cl d e f x) (hw : 0 < D b c x) :
    a = d ∨ a = e ∨ a = f := by
  by_cases hno : ∃ y, Inn a b c y ∧ Inn d e f y
  · obtain ⟨y, hy, ky⟩ := hno
    exact (h.same hF hg k hy ky).1
  have no : ∀ y, Inn a b c y → ¬ Inn d e f y := fun y h k => hno ⟨y, h, k⟩
  by_cases hV : x ∈ V
  · have : x = a := by
      rcases h.vertex hF hV hx with e | e | e
      · exact e
      · rw [e, D_same3] at hw; exact absurd hw (lt_irrefl _)
      · rw [e, D_same2] at hw; exact absurd hw (lt_irrefl _)
    rw [← this]
    exact k.vertex hF hV kx
  have or1 : ∀ {p q : ℚ}, 0 ≤ p → 0 < q → 0 < p ∨ 0 ≤ p ∧ 0 < q := fun h k => .inr ⟨h, k⟩
  have hi : ¬ Inn a b c x := by
    intro hi
    have g := mid_inn k.pos
    obtain ⟨t, -, -, t1, t2⟩ := step (.inl hi.ab) (.inl hi.bc) (.inl hi.ca) (or1 kx.ab g.ab) (or1 kx.bc g.bc) (or1 kx.ca g.ca)
    exact no _ t1 t2
  have ki : ¬ Inn d e f x := by
    intro hi
    have g := mid_inn h.pos
    obtain ⟨t, -, -, t1, t2⟩ := step (or1 hx.ab g.ab) (or1 hx.bc g.bc) (or1 hx.ca g.ca) (.inl hi.ab) (.inl hi.bc) (.inl hi.ca)
    exact no _ t1 t2
  have fin : Cl d e f a := by
    have cd := cl_a k.pos
    have ce := cl_b k.pos
    have cf := cl_c k.pos
    rcases edge_of h hx hV hi with e1 | e1 | e1
    · rcases edge_of k kx hV ki with e2 | e2 | e2
      · exact cl_seg cd ce (edge_meet hF h k e1 e2 no).1
      · exact cl_seg ce cf (edge_meet hF h k.cyc e1 e2 (fun y p q => no y p q.cyc.cyc)).1
      · exact cl_seg cf cd (edge_meet hF h k.cyc.cyc e1 e2 (fun y p q => no y p q.cyc)).1
    · exact absurd e1.ab hw.ne'
    · rcases edge_of k kx hV ki with e2 | e2 | e2
      · exact cl_seg cd ce (edge_meet hF h.cyc.cyc k e1 e2 (fun y p q => no y p.cyc q)).2
      · exact cl_seg ce cf (edge_meet hF h.cyc.cyc k.cyc e1 e2 (fun y p q => no y p.cyc q.cyc.cyc)).2
      · exact cl_seg cf cd (edge_meet hF h.cyc.cyc k.cyc.cyc e1 e2 (fun y p q => no y p.cyc q.cyc)).2
  exact k.vertex hF h.ha fin

/-! ## The triangles cover everything -/

theorem gen_exists {A B C : P2} (h : 0 < D A B C) (T : Finset (P2 × P2)) (hT : ∀ e ∈ T, e.1 ≠ e.2) : ∃ g, Inn A B C g ∧ ∀ e ∈ T, D g e.1 e.2 ≠ 0 := by
  classical
  induction T using Finset.induction_on with
  | empty => exact ⟨_, mid_inn h, by simp⟩
  | insert e T _ ih =>
    obtain ⟨g, hg, hne⟩ := ih fun e he => hT e (Finset.mem_insert_of_mem he)
    have hab := hT e (Finset.mem_insert_self e T)
    obtain ⟨u, hu, hcl⟩ : ∃ u, D u e.1 e.2 ≠ 0 ∧ Cl A B C u := by
      by_contra hn
      push Not at hn
      have zA : D A e.1 e.2 = 0 := by by_contra k; exact hn A k (cl_a h)
      have zB : D B e.1 e.2 = 0 := by by_contra k; exact hn B k (cl_b h)
      have zC : D C e.1 e.2 = 0 := by by_contra k; exact hn C k (cl_c h)
      rw [D_cyc] at zA zB zC
      obtain ⟨r, hr⟩ := line_at hab zA
      obtain ⟨s, hs⟩ := line_at hab zB
      obtain ⟨t, ht⟩ := line_at hab zC
      apply h.ne'
      rw [hr, hs, ht]
      simp only [D, at']; ring
    obtain ⟨e1, p1, l1, k1⟩ := small_ne (insert e T) (fun e => D g e.1 e.2) (fun e => D u e.1 e.2) (by
      intro i hi
      rcases Finset.mem_insert.1 hi with rfl | hi
      · exact .inr hu
      · exact .inl (hne i hi))
    refine ⟨at' g u (e1 / 2), hg.toward hcl (by linarith) (by linarith), fun i hi => ?_⟩
    rw [D_at1]
    exact k1 _ (by linarith) (by linarith) i hi

theorem gen_of {A B y : P2} (hA : A ∈ V) (hB : B ∈ V) (hAB : A ≠ B) (h : ∀ a ∈ V, ∀ b ∈ V, a ≠ b → D y a b ≠ 0) : Gen V y := by
  refine ⟨fun hy => ?_, h⟩
  by_cases e : y = A
  · exact h y hy B hB (e ▸ hAB) (D_same1 _ _)
  · exact h y hy A hA e (D_same1 _ _)

theorem cover (N : Net V S) (hF : F.Pos) {A B C x : P2} (hA : A ∈ V) (hB : B ∈ V) (hC : C ∈ V) (h : 0 < D A B C) (hx : Cl A B C x) : ∃ a b c, Good V S F h1 a b c ∧ Cl a b c x := by
  classical
  have hAB : A ≠ B := by rintro rfl; exact h.ne' (D_same1 _ _)
  let T := (V ×ˢ V).filter fun e => e.1 ≠ e.2
  obtain ⟨g, gi, gn⟩ := gen_exists h T fun e he => (Finset.mem_filter.1 he).2
  obtain ⟨e1, p1, l1, k1⟩ := small_ne T (fun e => D x e.1 e.2) (fun e => D g e.1 e.2) fun e he => .inr (gn e he)
  obtain ⟨e2, p2, l2, k2⟩ := small ((V ×ˢ V).filter fun e => D e.1 e.2 x < 0) (fun e => -D e.1 e.2 x) (fun e => -D e.1 e.2 g) fun e he => neg_pos.2 (Finset.mem_filter.1 he).2
  obtain ⟨t, t0, t1, t2⟩ : ∃ t, 0 < t ∧ t ≤ e1 ∧ t ≤ e2 := ⟨min e1 e2, lt_min p1 p2, min_le_left _ _, min_le_right _ _⟩
  have gen : Gen V (at' x g t) := by
    refine gen_of hA hB hAB fun a ha b hb hab => ?_
    rw [D_at1]
    exact k1 t t0 t1 (a, b) (Finset.mem_filter.2 ⟨Finset.mem_product.2 ⟨ha, hb⟩, hab⟩)
  have inn : Inn A B C (at' x g t) := by
    rw [at_rev]
    exact gi.toward hx (by linarith) (by linarith)
  obtain ⟨a, b, c, hgood, hin⟩ := good_at (F := F) (h1 := h1) N hF hA hB hC gen inn
  have nn : ∀ a ∈ V, ∀ b ∈ V, 0 < D a b (at' x g t) → 0 ≤ D a b x := by
    intro a ha b hb hp
    by_contra hn
    have := k2 t t0 t2 (a, b) (Finset.mem_filter.2 ⟨Finset.mem_product.2 ⟨ha, hb⟩, not_le.1 hn⟩)
    rw [D_at] at hp
    dsimp only at this
    linarith
  exact ⟨a, b, c, hgood, nn a hgood.ha b hgood.hb hin.ab, nn b hgood.hb c hgood.hc hin.bc, nn c hgood.hc a hgood.ha hin.ca⟩

/-- Constraints are edges. -/
theorem edge_seg (hF : F.Pos) (N : Net V S) {a b c x p q : P2} (h : Good V S F h1 a b c) (hx : Edge a b c x) (hV : x ∉ V) (hpq : S p q) (hs : Seg p q x) :
    Seg p q a ∧ Seg p q b ∧ Seg a b x := by
  obtain ⟨hp, hq, hne⟩ := N.ends hpq
  obtain ⟨hpos, hab, s, s0, s1, hsx⟩ := hx.at
  obtain ⟨r, r0, r1, hr⟩ := id hs
  have r0 : 0 < r := lt_of_le_of_ne r0 (by rintro rfl; exact hV (by rw [hr, at_zero]; exact hp))
  have r1 : r < 1 := lt_of_le_of_ne r1 (by rintro rfl; exact hV (by rw [hr, at_one]; exact hq))
  have one : ∀ u, Seg p q u → ¬ 0 < D a b u := by
    intro u hu hpu
    obtain ⟨t, t0, t1, ti, -⟩ := step (a := a) (b := b) (c := c) (d := a) (e := b) (f := c) (x := x) (g := u) (.inr ⟨hx.ab.ge, hpu⟩) (.inl hx.bc) (.inl hx.ca)
      (.inr ⟨hx.ab.ge, hpu⟩) (.inl hx.bc) (.inl hx.ca)
    exact h.empty _ ti p q hpq (seg_part hs hu ⟨t, t0.le, t1, rfl⟩)
  have hz : (1 - r) * D a b p + r * D a b q = 0 := by rw [← D_at, ← hr, hx.ab]
  have n1 := not_lt.1 (one p (seg_left _ _))
  have n2 := not_lt.1 (one q (seg_right _ _))
  have p1 := mul_nonneg (sub_nonneg.2 r1.le) (neg_nonneg.2 n1)
  have p2 := mul_nonneg r0.le (neg_nonneg.2 n2)
  have z1 := (mul_eq_zero.1 (show (1 - r) * D a b p = 0 by linarith)).resolve_left (by linarith)
  have z2 := (mul_eq_zero.1 (show r * D a b q = 0 by linarith)).resolve_left r0.ne'
  obtain ⟨ka, kb⟩ := edge_ends hF h hx hp hq r0 r1 hr z1 z2
  exact ⟨ka, kb, s, s0.le, s1.le, hsx⟩

/-! ## Constraints through vertices -/

/-- The parts of constraints between vertices. -/
def Split (V : Finset P2) (S : P2 → P2 → Prop) (a b : P2) : Prop :=
  a ∈ V ∧ b ∈ V ∧ a ≠ b ∧ (∃ c d, S c d ∧ Seg c d a ∧ Seg c d b) ∧ ∀ v ∈ V, Seg a b v → v = a ∨ v = b

/-- Constraints as they are given. -/
structure Raw (V : Finset P2) (S : P2 → P2 → Prop) : Prop where
  ends : ∀ {c d}, S c d → c ∈ V ∧ d ∈ V ∧ c ≠ d
  apart : ∀ {c d c' d' x}, S c d → S c' d' → Seg c d x → Seg c' d' x → x ∉ V → D c d c' = 0 ∧ D c d d' = 0

theorem Raw.net (R : Raw V S) : Net V (Split V S) where
  ends h := ⟨h.1, h.2.1, h.2.2.1⟩
  clear h hv hs := h.2.2.2.2 _ hv hs
  apart {c d c' d' x} h h' hx hx' hV := by
    obtain ⟨-, -, -, ⟨p, q, hpq, hc, hd⟩, -⟩ := h
    obtain ⟨-, -, -, ⟨p', q', hpq', hc', hd'⟩, -⟩ := h'
    obtain ⟨k1, k2⟩ := R.apart hpq hpq' (seg_part hc hd hx) (seg_part hc' hd' hx') hV
    have col : ∀ {u}, Seg p' q' u → D c d u = 0 := by
      intro u hu
      obtain ⟨s, -, -, rfl⟩ := hu
      obtain ⟨i, hi⟩ := line_at (R.ends hpq).2.2 k1
      obtain ⟨j, hj⟩ := line_at (R.ends hpq).2.2 k2
      obtain ⟨m, -, -, rfl⟩ := hc
      obtain ⟨n, -, -, rfl⟩ := hd
      rw [hi, hj]
      simp only [D, at']; ring
    exact ⟨col hc', col hd'⟩

theorem split_at {c d : P2} (hc : c ∈ V) (hd : d ∈ V) (hne : c ≠ d) {s : ℚ} (s0 : 0 ≤ s) (s1 : s < 1) :
    ∃ a b, a ∈ V ∧ b ∈ V ∧ a ≠ b ∧ Seg c d a ∧ Seg c d b ∧ (∀ v ∈ V, Seg a b v → v = a ∨ v = b) ∧ Seg a b (at' c d s) := by
  classical
  -- the position on the segment
  let f : P2 → ℚ := fun v => ((v.x - c.x) * (d.x - c.x) + (v.y - c.y) * (d.y - c.y)) / ((d.x - c.x) ^ 2 + (d.y - c.y) ^ 2)
  have pos : (d.x - c.x) ^ 2 + (d.y - c.y) ^ 2 ≠ 0 := by
    intro h
    have k1 : (d.x - c.x) ^ 2 = 0 := le_antisymm (by nlinarith [sq_nonneg (d.y - c.y)]) (sq_nonneg _)
    have k2 : (d.y - c.y) ^ 2 = 0 := le_antisymm (by nlinarith [sq_nonneg (d.x - c.x)]) (sq_nonneg _)
    have k1 := pow_eq_zero_iff two_ne_zero |>.1 k1
    have k2 := pow_eq_zero_iff two_ne_zero |>.1 k2
    exact hne (by ext <;> linarith)
  have fat : ∀ t, f (at' c d t) = t := by
    intro t
    simp only [f, at']
    field_simp
    ring
  have eqf : ∀ {v}, Seg c d v → v = at' c d (f v) ∧ 0 ≤ f v ∧ f v ≤ 1 := by
    rintro v ⟨t, t0, t1, rfl⟩
    rw [fat]
    exact ⟨rfl, t0, t1⟩
  have fc : f c = 0 := by have := fat 0; rwa [at_zero] at this
  have fd : f d = 1 := by have := fat 1; rwa [at_one] at this
  obtain ⟨a, ha, hmax⟩ := Finset.exists_max_image (V.filter fun v => Seg c d v ∧ f v ≤ s) f ⟨c, Finset.mem_filter.2 ⟨hc, seg_left _ _, by rw [fc]; exact s0⟩⟩
  obtain ⟨b, hb, hmin⟩ := Finset.exists_min_image (V.filter fun v => Seg c d v ∧ s < f v) f ⟨d, Finset.mem_filter.2 ⟨hd, seg_right _ _, by rw [fd]; exact s1⟩⟩
  obtain ⟨haV, has, hle⟩ := Finset.mem_filter.1 ha
  obtain ⟨hbV, hbs, hlt⟩ := Finset.mem_filter.1 hb
  obtain ⟨ea, a0, a1⟩ := eqf has
  obtain ⟨eb, b0, b1⟩ := eqf hbs
  have hlt' : f a < f b := lt_of_le_of_lt hle hlt
  refine ⟨a, b, haV, hbV, fun e => (e ▸ hlt').ne rfl, has, hbs, ?_, ?_⟩
  · intro v hv hvs
    have hvc := seg_part has hbs hvs
    obtain ⟨ev, v0, v1⟩ := eqf hvc
    obtain ⟨t, t0, t1, et⟩ := hvs
    have ft : f v = (1 - t) * f a + t * f b := by
      rw [et]
      conv_lhs => rw [ea, eb]
      rw [at_mix, fat]
    rcases le_or_gt (f v) s with k | k
    · have := hmax v (Finset.mem_filter.2 ⟨hv, hvc, k⟩)
      left
      rw [ev, ea]
      congr 1
      refine le_antisymm this ?_
      nlinarith
    · have := hmin v (Finset.mem_filter.2 ⟨hv, hvc, k⟩)
      right
      rw [ev, eb]
      congr 1
      refine le_antisymm ?_ this
      nlinarith [mul_nonneg (sub_nonneg.2 t1) (sub_nonneg.2 hlt'.le)]
  · have hp : 0 < f b - f a := by linarith
    refine ⟨(s - f a) / (f b - f a), div_nonneg (by linarith) hp.le, (div_le_one hp).2 (by linarith), ?_⟩
    conv_rhs => rw [ea, eb]
    rw [at_mix, fat, fat]
    congr 1
    field_simp
    ring

theorem Raw.split (R : Raw V S) {c d x : P2} (h : S c d) (hx : Seg c d x) : ∃ a b, Split V S a b ∧ Seg c d a ∧ Seg c d b ∧ Seg a b x := by
  obtain ⟨hc, hd, hne⟩ := R.ends h
  obtain ⟨s, s0, s1, rfl⟩ := hx
  rcases lt_or_eq_of_le s1 with k | k
  · obtain ⟨a, b, ha, hb, hab, sa, sb, cl, sx⟩ := split_at hc hd hne s0 k
    exact ⟨a, b, ⟨ha, hb, hab, ⟨c, d, h, sa, sb⟩, cl⟩, sa, sb, sx⟩
  · subst k
    obtain ⟨a, b, ha, hb, hab, sa, sb, cl, sx⟩ := split_at hd hc hne.symm (le_refl 0) one_pos
    rw [at_zero] at sx
    rw [at_one]
    exact ⟨a, b, ⟨ha, hb, hab, ⟨c, d, h, seg_symm sa, seg_symm sb⟩, cl⟩, seg_symm sa, seg_symm sb, sx⟩

theorem Raw.vis (_R : Raw V S) {y v : P2} (h : Vis S y v) : Vis (Split V S) y v := by
  rintro x hx hne c d ⟨-, -, -, ⟨p, q, hpq, hc, hd⟩, -⟩ hs
  exact h x hx hne p q hpq (seg_part hc hd hs)

/-! ## Triangulations -/

/-- The triangles of a constrained Delaunay triangulation, with all rotations of their corners. -/
structure Mesh (lt : P2 → P2 → Prop) (V : Finset P2) (S : P2 → P2 → Prop) (F : Form) (A B C : P2) (G : P2 → P2 → P2 → Prop) : Prop where
  mem : ∀ {a b c}, G a b c → a ∈ V ∧ b ∈ V ∧ c ∈ V
  pos : ∀ {a b c}, G a b c → 0 < D a b c
  cyc : ∀ {a b c}, G a b c → G b c a
  cover : ∀ {x}, Cl A B C x → ∃ a b c, G a b c ∧ Cl a b c x
  vertex : ∀ {a b c d}, G a b c → d ∈ V → Cl a b c d → d = a ∨ d = b ∨ d = c
  same : ∀ {a b c d e f y}, G a b c → G d e f → Inn a b c y → Inn d e f y → a = d ∨ a = e ∨ a = f
  meet : ∀ {a b c d e f x}, G a b c → G d e f → Cl a b c x → Cl d e f x → 0 < D b c x → a = d ∨ a = e ∨ a = f
  segment : ∀ {p q x}, S p q → Seg p q x → ∃ a b c, G a b c ∧ ∃ u v, (u = a ∨ u = b ∨ u = c) ∧ (v = a ∨ v = b ∨ v = c) ∧ Seg p q u ∧ Seg p q v ∧ Seg u v x
  delaunay : ∀ {a b c y d}, G a b c → Inn a b c y → d ∈ V → Vis S y d → 0 ≤ E F.ev a b c d
  ties : ∀ {a b c y d}, G a b c → Inn a b c y → d ∈ V → Vis S y d → E F.ev a b c d = 0 → lt b a → lt c a → lt d a → D d b c ≤ 0

/-- There are constrained Delaunay triangulations. -/
theorem mesh_exists {lt : P2 → P2 → Prop} (O : Order lt) (R : Raw V S) (hF : F.Pos) {A B C : P2} (hA : A ∈ V) (hB : B ∈ V) (hC : C ∈ V) (h : 0 < D A B C) (hV : ∀ v ∈ V, Cl A B C v) : ∃ G, Mesh lt V S F A B C G := by
  obtain ⟨h1, hst⟩ := steep_exists O _ V rfl
  have hg := steep_genH O hst
  have N := R.net
  refine ⟨Good V (Split V S) F h1, ?_⟩
  constructor
  case mem => exact fun h => ⟨h.ha, h.hb, h.hc⟩
  case pos => exact fun h => h.pos
  case cyc => exact fun h => h.cyc
  case cover => exact fun hx => cover N hF hA hB hC h hx
  case vertex => exact fun h hd hc => h.vertex hF hd hc
  case same => exact fun h k hy ky => (h.same hF hg k hy ky).1
  case meet => exact fun h k hx kx hw => h.meet hF hg k hx kx hw
  case delaunay => exact fun h hy hd hv => (h.low _ hy _ hd (R.vis hv)).fst
  case ties =>
    intro a b c y d h hy hd hv h0 l1 l2 l3
    by_contra hn
    push Not at hn
    have := hst d hd b h.hb c h.hc a h.ha l3 l1 l2 hn.ne'
    rw [show E h1 d b c a = - E h1 a b c d by simp only [E, D]; ring] at this
    have low := (h.low _ hy _ hd (R.vis hv)).resolve_left (by rw [h0]; exact lt_irrefl _)
    nlinarith [mul_nonneg hn.le low.2]
  case segment =>
    intro p q x hpq hx
    obtain ⟨hp, hq, -⟩ := R.ends hpq
    obtain ⟨p', q', hpq', sp, sq, sx⟩ := R.split hpq hx
    obtain ⟨a, b, c, hgood, hcl⟩ := cover (h1 := h1) N hF hA hB hC h (cl_seg (hV p hp) (hV q hq) hx)
    by_cases hxV : x ∈ V
    · exact ⟨a, b, c, hgood, x, x, hgood.vertex hF hxV hcl, hgood.vertex hF hxV hcl, hx, hx, seg_left _ _⟩
    have hi : ¬ Inn a b c x := fun hi => hgood.empty x hi p' q' hpq' sx
    rcases edge_of hgood hcl hxV hi with e | e | e
    · obtain ⟨k1, k2, k3⟩ := edge_seg hF N hgood e hxV hpq' sx
      exact ⟨a, b, c, hgood, a, b, .inl rfl, .inr (.inl rfl), seg_part sp sq k1, seg_part sp sq k2, k3⟩
    · obtain ⟨k1, k2, k3⟩ := edge_seg hF N hgood.cyc e hxV hpq' sx
      exact ⟨a, b, c, hgood, b, c, .inr (.inl rfl), .inr (.inr rfl), seg_part sp sq k1, seg_part sp sq k2, k3⟩
    · obtain ⟨k1, k2, k3⟩ := edge_seg hF N hgood.cyc.cyc e hxV hpq' sx
      exact ⟨a, b, c, hgood, c, a, .inr (.inr rfl), .inl rfl, seg_part sp sq k1, seg_part sp sq k2, k3⟩

end Kigumi.Plane
