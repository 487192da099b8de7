import Verif.Proofs.PiecesMeet
import Verif.Spec.Ties

/-! # Pieces in the common part of two triangles, with ties broken by an order -/
namespace Kigumi.Cutting
open Kigumi Geo Spec.Triangles Spec.Side FaceFace Space
open Kigumi.Side (Aff plane Ok eval_seg in_iff sides weightA weightB weightC eval_weightA eval_weightB eval_weightC eval_plane eval_plane' eval_neg ok_of_proper onSegment_self left_end right_end onSegment_swap in_a in_b in_c plane_in same_plane exists_eps miss_near seg_near near_refl near_mono eval_near)

/-- A chord has no other points of the circle. -/
theorem chord {o b c x : P3} (h : OnSegment b c x) (h1 : dist2 o b = dist2 o x) (h2 : dist2 o c = dist2 o x) : x = b ∨ x = c := by
  obtain ⟨s, t, hs, s0, t0, rfl⟩ := h
  have e : s = 1 - t := by linarith
  subst e
  have k : (1 - t) * t * dist2 b c = 0 := by
    have : dist2 o ⟨(1 - t) * b.x + t * c.x, (1 - t) * b.y + t * c.y, (1 - t) * b.z + t * c.z⟩ = (1 - t) * dist2 o b + t * dist2 o c - (1 - t) * t * dist2 b c := by
      simp only [dist2]; ring
    rw [h2, h1] at this
    linarith
  rcases mul_eq_zero.1 k with h | h
  · rcases mul_eq_zero.1 h with h | h
    · have : t = 1 := by linarith
      subst this
      right; apply p3_ext <;> ring
    · subst h
      left; apply p3_ext <;> ring
  · obtain ⟨hx, hy, hz⟩ := dot_self_zero (n := ⟨b.x - c.x, b.y - c.y, b.z - c.z⟩) h
    left
    apply p3_ext
    · show (1 - t) * b.x + t * c.x = b.x
      linear_combination (-t) * hx
    · show (1 - t) * b.y + t * c.y = b.y
      linear_combination (-t) * hy
    · show (1 - t) * b.z + t * c.z = b.z
      linear_combination (-t) * hz

/-- A function on the plane that is one at `g` and zero at `b` and `c`. -/
theorem height {g b c : P3} (h : Ok ⟨g, b, c⟩) : ∃ f : Aff, f.eval g = 1 ∧ f.eval b = 0 ∧ f.eval c = 0 := by
  have hN : dot (normal g b c) (normal g b c) ≠ 0 := h
  have k1 := eval_wA ⟨g, b, c⟩ (u := 1) (v := 0) (w := 0) (by norm_num)
  have k2 := eval_wA ⟨g, b, c⟩ (u := 0) (v := 1) (w := 0) (by norm_num)
  have k3 := eval_wA ⟨g, b, c⟩ (u := 0) (v := 0) (w := 1) (by norm_num)
  have e1 : combo 1 0 0 g b c = g := by apply p3_ext <;> simp [combo]
  have e2 : combo 0 1 0 g b c = b := by apply p3_ext <;> simp [combo]
  have e3 : combo 0 0 1 g b c = c := by apply p3_ext <;> simp [combo]
  simp only [e1, e2, e3] at k1 k2 k3
  set N := dot (normal g b c) (normal g b c)
  let w := weightA ⟨g, b, c⟩
  have e : ∀ x, (⟨⟨w.n.x / N, w.n.y / N, w.n.z / N⟩, w.k / N⟩ : Aff).eval x = w.eval x / N := by
    intro x
    simp only [Aff.eval, dot]
    field_simp
  refine ⟨⟨⟨w.n.x / N, w.n.y / N, w.n.z / N⟩, w.k / N⟩, ?_, ?_, ?_⟩
  · rw [e, k1, one_mul, div_self hN]
  · rw [e, k2]; simp
  · rw [e, k3]; simp

theorem eval_on (f : Aff) {a b x : P3} (h : OnSegment a b x) : ∃ s t, s + t = 1 ∧ 0 ≤ s ∧ 0 ≤ t ∧ x = seg s t a b ∧ f.eval x = s * f.eval a + t * f.eval b := by
  obtain ⟨s, t, hs, s0, t0, e⟩ := h
  exact ⟨s, t, hs, s0, t0, e, by rw [show x = seg s t a b from e, eval_seg f hs]⟩

/-- A point that is separated from `g` is not on the side of `g`. -/
theorem opposed_height {f : Aff} {g b c v : P3} (fg : f.eval g = 1) (fb : f.eval b = 0) (fc : f.eval c = 0) (h : Opposed g v b c) : f.eval v ≤ 0 := by
  obtain ⟨x, h1, h2⟩ := h
  obtain ⟨s, t, hs, s0, t0, -, e⟩ := eval_on f h1
  obtain ⟨s', t', -, -, -, -, e'⟩ := eval_on f h2
  rw [fb, fc] at e'
  rw [e', fg] at e
  by_contra hn
  push Not at hn
  rcases t0.eq_or_lt with ht | ht
  · rw [← ht] at e hs; linarith
  · nlinarith [mul_pos ht hn]

/-- … and strictly on the other side, if the four points are different and on a circle. -/
theorem opposed_strict {o g b c v : P3} (h : Opposed g v b c) (hv : dist2 o v = dist2 o b) (hc : dist2 o c = dist2 o b) (n1 : v ≠ b) (n2 : v ≠ c) :
    ∃ x s t, s + t = 1 ∧ 0 < s ∧ 0 ≤ t ∧ x = seg s t g v ∧ OnSegment b c x := by
  obtain ⟨x, ⟨s, t, hs, s0, t0, e⟩, h2⟩ := h
  refine ⟨x, s, t, hs, lt_of_le_of_ne s0 fun hz => ?_, t0, e, h2⟩
  have e1 : x = v := by
    have ht : t = 1 := by linarith
    rw [show x = seg s t g v from e, ← hz, ht]
    apply p3_ext <;> simp [seg]
  rw [e1] at h2
  rcases chord (o := o) h2 hv.symm (by rw [hc, hv]) with h | h
  · exact n1 h
  · exact n2 h

/-- Of two triangles with different corners on a circle, both in accordance with an order, the one does not contain the centre of the other. -/
theorem tie_unique {lt : P3 → P3 → Prop} {S : P3 → Prop} (irr : ∀ x, ¬ lt x x) (tr : ∀ x y z, lt x y → lt y z → lt x z) (tot : ∀ x y, S x → S y → x = y ∨ lt x y ∨ lt y x)
    {p r : Tri P3} (hp : Proper p) (hr : Proper r) (sp : ∀ v ∈ p.toList, S v) (sr : ∀ v ∈ r.toList, S v) {o : P3} {d : ℚ} (op : ∀ v ∈ p.toList, dist2 o v = d) (or : ∀ v ∈ r.toList, dist2 o v = d)
    (tp : ∀ v ∈ r.toList, v ∉ p.toList → Tie lt p v) (ti : ∀ v ∈ p.toList, v ∉ r.toList → Tie lt r v) {y : P3} (yp : Inner p y) (yr : Inner r y) : Match p r := by
  -- the greatest of all corners
  have great : ∀ l : List P3, l ≠ [] → (∀ v ∈ l, S v) → ∃ g ∈ l, ∀ x ∈ l, x = g ∨ lt x g := by
    intro l
    induction l with
    | nil => intro h; exact absurd rfl h
    | cons a l ih =>
      intro _ hS
      by_cases hl : l = []
      · subst hl; exact ⟨a, by simp, by simp⟩
      obtain ⟨g, hg, hx⟩ := ih hl fun v hv => hS v (by simp [hv])
      rcases tot a g (hS a (by simp)) (hS g (by simp [hg])) with e | e | e
      · refine ⟨g, by simp [hg], fun x h => ?_⟩
        rcases List.mem_cons.1 h with rfl | h
        · exact .inl e
        · exact hx x h
      · refine ⟨g, by simp [hg], fun x h => ?_⟩
        rcases List.mem_cons.1 h with rfl | h
        · exact .inr e
        · exact hx x h
      · refine ⟨a, by simp, fun x h => ?_⟩
        rcases List.mem_cons.1 h with rfl | h
        · exact .inl rfl
        · rcases hx x h with rfl | h
          · exact .inr e
          · exact .inr (tr _ _ _ h e)
  -- the greatest corner first
  have first : ∀ {k : Tri P3} {g : P3}, Proper k → g ∈ k.toList → ∃ b c, Match ⟨g, b, c⟩ k ∧ (∀ v, v ∈ k.toList ↔ v = g ∨ v = b ∨ v = c) ∧ g ≠ b ∧ g ≠ c ∧ b ≠ c ∧ Ok ⟨g, b, c⟩ := by
    intro k g hk hg
    obtain ⟨n1, n2, n3⟩ := proper_distinct hk
    obtain ⟨b, c, hm⟩ : ∃ b c, Match ⟨g, b, c⟩ k := by
      obtain ⟨x, y, z⟩ := k
      simp only [Tri.toList, List.mem_cons, List.not_mem_nil, or_false] at hg
      rcases hg with rfl | rfl | rfl
      · exact ⟨y, z, .inl (.inl rfl)⟩
      · exact ⟨z, x, .inl (.inr (.inr rfl))⟩
      · exact ⟨x, y, .inl (.inr (.inl rfl))⟩
    have hpr : Proper ⟨g, b, c⟩ := match_proper (match_symm hm) hk
    obtain ⟨m1, m2, m3⟩ := proper_distinct hpr
    refine ⟨b, c, hm, fun v => ?_, m1, m3.symm, m2, ok_of_proper hpr⟩
    rw [← match_mem hm v]
    simp [Tri.toList]
  obtain ⟨g, hg, hmax⟩ := great (p.toList ++ r.toList) (by simp [Tri.toList]) (by
    intro v hv
    rcases List.mem_append.1 hv with h | h
    exacts [sp v h, sr v h])
  have gt : ∀ {v}, v ∈ p.toList ∨ v ∈ r.toList → v ≠ g → lt v g := fun {v} hv hne => (hmax v (List.mem_append.2 hv)).resolve_left hne
  -- the greatest corner is a corner of both
  have both : ∀ {p r : Tri P3}, Proper p → (∀ v ∈ r.toList, v ∉ p.toList → Tie lt p v) → (∀ {v}, v ∈ p.toList ∨ v ∈ r.toList → v ≠ g → lt v g) → Inner p y → Inner r y → g ∈ p.toList → g ∈ r.toList := by
    intro p r hp tp gt yp yr hg
    by_contra hgr
    obtain ⟨b, c, hm, mem, n1, n2, n3, ok⟩ := first hp hg
    obtain ⟨f, fg, fb, fc⟩ := height ok
    have low : ∀ v ∈ r.toList, f.eval v ≤ 0 := by
      intro v hv
      have hvg : v ≠ g := fun e => hgr (e ▸ hv)
      by_cases hvp : v ∈ p.toList
      · rcases (mem v).1 hvp with rfl | rfl | rfl
        · exact absurd rfl hvg
        · exact fb.le
        · exact fc.le
      · exact opposed_height fg fb fc (tp v hv hvp g b c hm (gt (.inl ((mem b).2 (.inr (.inl rfl)))) n1.symm) (gt (.inl ((mem c).2 (.inr (.inr rfl)))) n2.symm) (gt (.inr hv) hvg))
    have h1 := hull_eval low (in_hull (inner_in yr))
    have yg : Inner ⟨g, b, c⟩ y := inner_match (match_symm hm) yp
    obtain ⟨u, v, w, hs, rfl, u0, v0, w0⟩ := yg
    simp only [Weight, if_true] at u0 v0 w0
    have : f.eval (combo u v w g b c) = u * f.eval g + v * f.eval b + w * f.eval c := by
      have : u = 1 - v - w := by linarith
      subst this
      simp only [Aff.eval, combo, dot]; ring
    rw [this, fg, fb, fc] at h1
    linarith
  have gp : g ∈ p.toList := by
    rcases List.mem_append.1 hg with h | h
    · exact h
    · exact both hr ti (fun hv => gt hv.symm) yr yp h
  have gr : g ∈ r.toList := both hp tp gt yp yr gp
  obtain ⟨b, c, hm, mem, n1, n2, n3, ok⟩ := first hp gp
  obtain ⟨b', c', hm', mem', n1', n2', n3', ok'⟩ := first hr gr
  -- a corner of the one that is not a corner of the other
  have key : ∀ {p r : Tri P3} {b c b' c' : P3}, Match ⟨g, b, c⟩ p → Match ⟨g, b', c'⟩ r → (∀ v, v ∈ p.toList ↔ v = g ∨ v = b ∨ v = c) → (∀ v, v ∈ r.toList ↔ v = g ∨ v = b' ∨ v = c') → g ≠ b → g ≠ c → g ≠ b' → g ≠ c' → Ok ⟨g, b', c'⟩ →
      (∀ v ∈ p.toList, dist2 o v = d) → (∀ v ∈ r.toList, dist2 o v = d) → (∀ v ∈ r.toList, v ∉ p.toList → Tie lt p v) → (∀ v ∈ p.toList, v ∉ r.toList → Tie lt r v) → (∀ {v}, v ∈ p.toList ∨ v ∈ r.toList → v ≠ g → lt v g) →
      ∀ v ∈ r.toList, v ∈ p.toList := by
    intro p r b c b' c' hm hm' mem mem' n1 n2 n1' n2' ok' op or tp ti gt v hv
    by_contra hvp
    have hb := (mem b).2 (.inr (.inl rfl))
    have hc := (mem c).2 (.inr (.inr rfl))
    have hb' := (mem' b').2 (.inr (.inl rfl))
    have hc' := (mem' c').2 (.inr (.inr rfl))
    have hvg : v ≠ g := by rintro rfl; exact hvp ((mem v).2 (.inl rfl))
    have opp := tp v hv hvp g b c hm (gt (.inl hb) n1.symm) (gt (.inl hc) n2.symm) (gt (.inr hv) hvg)
    obtain ⟨x, s, t, hs, s0, t0, e, hx⟩ := opposed_strict opp ((or v hv).trans (op b hb).symm) ((op c hc).trans (op b hb).symm) (fun e => hvp (e ▸ hb)) (fun e => hvp (e ▸ hc))
    obtain ⟨f, fg, fb, fc⟩ := height ok'
    have low : ∀ w ∈ p.toList, w ≠ g → f.eval w ≤ 0 := by
      intro w hw hwg
      by_cases hwr : w ∈ r.toList
      · rcases (mem' w).1 hwr with rfl | rfl | rfl
        · exact absurd rfl hwg
        · exact fb.le
        · exact fc.le
      · exact opposed_height fg fb fc (ti w hw hwr g b' c' hm' (gt (.inr hb') n1'.symm) (gt (.inr hc') n2'.symm) (gt (.inl hw) hwg))
    have fv : f.eval v = 0 := by
      rcases (mem' v).1 hv with rfl | rfl | rfl
      · exact absurd rfl hvg
      · exact fb
      · exact fc
    obtain ⟨s', t', -, s0', t0', -, e'⟩ := eval_on f hx
    have h1 : f.eval x = s := by rw [e, eval_seg f hs, fg, fv]; ring
    rw [h1] at e'
    nlinarith [low b hb n1.symm, low c hc n2.symm]
  have h1 := key hm hm' mem mem' n1 n2 n1' n2' ok' op or tp ti gt
  exact match_symm (match_of_mem (proper_distinct hr) (h1 _ (by simp [Tri.toList])) (h1 _ (by simp [Tri.toList])) (h1 _ (by simp [Tri.toList])))

theorem opposed_swap {a b c d : P3} (h : Opposed a b c d) : Opposed b a c d := by
  obtain ⟨x, h1, h2⟩ := h
  exact ⟨x, onSegment_swap h1, h2⟩

theorem opposed_swap' {a b c d : P3} (h : Opposed a b c d) : Opposed a b d c := by
  obtain ⟨x, h1, h2⟩ := h
  exact ⟨x, h1, onSegment_swap h2⟩

/-- Of four points on a circle, `a` has only one that is opposite to it. -/
theorem opposed_once {o a b c v : P3} (ok : Ok ⟨b, a, c⟩) {d : ℚ} (ha : dist2 o a = d) (hc : dist2 o c = d) (hv : dist2 o v = d) (n1 : a ≠ c) (n2 : a ≠ v) (h1 : Opposed b v a c) (h2 : Opposed b a c v) : False := by
  obtain ⟨f, fb, fa, fc⟩ := height ok
  have fv := opposed_height fb fa fc h1
  obtain ⟨x, ⟨s, t, hs, s0, t0, e⟩, hx⟩ := h2
  obtain ⟨s', t', -, s0', t0', -, e'⟩ := eval_on f hx
  have ex : f.eval x = s := by rw [show x = seg s t b a from e, eval_seg f hs, fb, fa]; ring
  rw [ex, fc] at e'
  have hs0 : s = 0 := by nlinarith
  have exa : x = a := by
    have ht : t = 1 := by linarith
    rw [show x = seg s t b a from e, hs0, ht]
    apply p3_ext <;> simp [seg]
  rw [exa] at hx
  rcases chord (o := o) hx (by rw [ha, hc]) (by rw [ha, hv]) with h | h
  · exact n1 h
  · exact n2 h

theorem match_flip (a b c : P3) : Match ⟨a, c, b⟩ ⟨a, b, c⟩ := by
  unfold Match Spec.SameTri Tri.flip Tri.rot
  simp

theorem match_flip' (a b c : P3) : Match ⟨b, a, c⟩ ⟨a, b, c⟩ := by
  unfold Match Spec.SameTri Tri.flip Tri.rot
  simp

/-- Triangles in accordance with an order are in accordance with another one, where the greatest of four points are opposite. -/
theorem tie_flip {lt lt' : P3 → P3 → Prop} {S : P3 → Prop} (tr : ∀ x y z, lt' x y → lt' y z → lt' x z) (tot : ∀ x y, S x → S y → x = y ∨ lt' x y ∨ lt' y x) {r : Tri P3} {v : P3} (hr : Proper r) (hn : v ∉ r.toList) (sr : ∀ x ∈ r.toList, S x) (sv : S v)
    {o : P3} {d : ℚ} (dr : ∀ x ∈ r.toList, dist2 o x = d) (dv : dist2 o v = d)
    (split : ∀ w x y z, (w = v ∨ w ∈ r.toList) → (x = v ∨ x ∈ r.toList) → (y = v ∨ y ∈ r.toList) → (z = v ∨ z ∈ r.toList) → y ≠ z → lt w x → lt y x → lt z x → lt' x w → lt' y w → lt' z w → Opposed w x y z)
    (h : Tie lt' r v) : Tie lt r v := by
  intro a b c hm hb hc hv
  have mem : ∀ x, x ∈ r.toList ↔ x = a ∨ x = b ∨ x = c := fun x => by rw [← match_mem hm x]; simp [Tri.toList]
  have ma := (mem a).2 (.inl rfl)
  have mb := (mem b).2 (.inr (.inl rfl))
  have mc := (mem c).2 (.inr (.inr rfl))
  have hp : Proper ⟨a, b, c⟩ := match_proper (match_symm hm) hr
  obtain ⟨n1, n2, n3⟩ := proper_distinct hp
  simp only at n1 n2 n3
  have va : v ≠ a := fun e => hn (e ▸ ma)
  have vb : v ≠ b := fun e => hn (e ▸ mb)
  have vc : v ≠ c := fun e => hn (e ▸ mc)
  -- the greatest of the four for the other order is `b`
  have key : ∀ b c, Match ⟨a, b, c⟩ r → lt b a → lt c a → lt' a b → lt' c b → lt' v b → False := by
    intro b c hm hb hc h0 h1 h2
    have mem : ∀ x, x ∈ r.toList ↔ x = a ∨ x = b ∨ x = c := fun x => by rw [← match_mem hm x]; simp [Tri.toList]
    have mb := (mem b).2 (.inr (.inl rfl))
    have mc := (mem c).2 (.inr (.inr rfl))
    have hm' : Match ⟨b, a, c⟩ r := match_trans (match_flip' a b c) hm
    have hp : Proper ⟨b, a, c⟩ := match_proper (match_symm hm') hr
    obtain ⟨n1, n2, n3⟩ := proper_distinct hp
    simp only at n1 n2 n3
    have o1 := h b a c hm' h0 h1 h2
    have o2 := split b a c v (.inr mb) (.inr ma) (.inr mc) (.inl rfl) (fun e => hn (e ▸ mc)) hb hc hv h0 h1 h2
    exact opposed_once (o := o) (ok_of_proper hp) (dr a ma) (dr c mc) dv n2 va.symm o1 o2
  have top : ∀ {w x y z}, S w → S x → S y → S z → w ≠ x → w ≠ y → w ≠ z → x ≠ y → x ≠ z → y ≠ z → (lt' x w ∧ lt' y w ∧ lt' z w) ∨ (lt' w x ∧ lt' y x ∧ lt' z x) ∨ (lt' w y ∧ lt' x y ∧ lt' z y) ∨ (lt' w z ∧ lt' x z ∧ lt' y z) := by
    intro w x y z sw sx sy sz d1 d2 d3 d4 d5 d6
    rcases (tot w x sw sx).resolve_left d1 with t1 | t1 <;> rcases (tot y z sy sz).resolve_left d6 with t2 | t2
    · rcases (tot x z sx sz).resolve_left d5 with t | t
      exacts [.inr (.inr (.inr ⟨tr _ _ _ t1 t, t, t2⟩)), .inr (.inl ⟨t1, tr _ _ _ t2 t, t⟩)]
    · rcases (tot x y sx sy).resolve_left d4 with t | t
      exacts [.inr (.inr (.inl ⟨tr _ _ _ t1 t, t, t2⟩)), .inr (.inl ⟨t1, t, tr _ _ _ t2 t⟩)]
    · rcases (tot w z sw sz).resolve_left d3 with t | t
      exacts [.inr (.inr (.inr ⟨t, tr _ _ _ t1 t, t2⟩)), .inl ⟨t1, tr _ _ _ t2 t, t⟩]
    · rcases (tot w y sw sy).resolve_left d2 with t | t
      exacts [.inr (.inr (.inl ⟨t, tr _ _ _ t1 t, t2⟩)), .inl ⟨t1, t, tr _ _ _ t2 t⟩]
  rcases top (sr a ma) (sr b mb) (sr c mc) sv n1 n3.symm va.symm n2 vb.symm vc.symm with ⟨k1, k2, k3⟩ | ⟨k1, k2, k3⟩ | ⟨k1, k2, k3⟩ | ⟨k1, k2, k3⟩
  · exact h a b c hm k1 k2 k3
  · exact (key b c hm hb hc k1 k2 k3).elim
  · exact (key c b (match_trans (match_flip a b c) hm) hc hb k1 k2 k3).elim
  · exact opposed_swap (split v a b c (.inl rfl) (.inr ma) (.inr mb) (.inr mc) n2 hv hb hc k1 k2 k3)

/-- Each triangle has been cut in accordance with its order. -/
def TiesCut (ord : Tri P3 → P3 → P3 → Prop) (op : Bool → List (Tri P3)) (cut : Bool → Tri P3 → List (Tri P3)) : Prop :=
  ∀ b, ∀ t ∈ op b, TiesBy (ord t) t (CutVertex op b t) (CutSegment op b t) (cut b t)

theorem multiple_of {t u : Tri P3} {k : ℚ} (h : ∀ x, (plane u).eval x = k * (plane t).eval x) : Multiple k t u := by
  have h0 := h ⟨0, 0, 0⟩
  have h1 := h ⟨1, 0, 0⟩
  have h2 := h ⟨0, 1, 0⟩
  have h3 := h ⟨0, 0, 1⟩
  unfold Multiple
  rw [Kigumi.Side.outward_eq, Kigumi.Side.outward_eq]
  simp only [plane, Aff.eval, dot] at h0 h1 h2 h3
  apply p3_ext <;> simp only <;> linarith

theorem multiple_swap {t u : Tri P3} {k : ℚ} (hk : k ≠ 0) (h : Multiple k t u) : Multiple k⁻¹ u t := by
  unfold Multiple at *
  rw [h]
  apply p3_ext <;> simp only <;> field_simp

theorem inPlane_of {t : Tri P3} {x : P3} (h : (plane t).eval x = 0) : LiesIn t x := by
  unfold LiesIn
  rw [Kigumi.Side.outward_eq]
  simp only [plane, Aff.eval, dot] at h
  linarith

/-- **Where ties are broken by the orders, the pieces in the common part of two triangles in a plane are the same.** -/
theorem agree_ties {ord : Tri P3 → P3 → P3 → Prop} (h : Cuts op cut) (ho : Orders ord) (hs : SplitCircles ord op) (hc : TiesCut ord op cut) : Agree op cut := by
  intro b t ht u hu hct hcu hw p hp hpu
  have ht' : t ∈ op (!!b) := by rw [Bool.not_not]; exact ht
  have hct' : ¬ Coincides op (!!b) t := by rw [Bool.not_not]; exact hct
  obtain ⟨r, hr, ⟨y, yp, yr⟩, hrt, qp, qr, o, d, ep, er⟩ := piece_meet h ht hu hct hcu hw hp hpu
  refine ⟨r, hr, ?_⟩
  have okt := ok_op h ht
  have oku := ok_op h hu
  have pp := (h.tri b t ht).complex.proper p hp
  have pr := (h.tri (!b) u hu).complex.proper r hr
  obtain ⟨k, hk, e⟩ := same_plane okt oku (fun z hz => wide_plane okt oku hw hz)
  have mul := multiple_of e
  have inp : ∀ {v}, Q t u v → LiesIn t v := fun hv => inPlane_of (plane_in hv.1.1)
  have cop : ∀ v, dist2 o v = d → Cocircular p.a p.b p.c v := fun v hv =>
    ⟨o, by rw [ep p.a (by simp [Tri.toList]), ep p.b (by simp [Tri.toList])], by rw [ep p.b (by simp [Tri.toList]), ep p.c (by simp [Tri.toList])], by rw [ep p.c (by simp [Tri.toList]), hv]⟩
  have cor : ∀ v, dist2 o v = d → Cocircular r.a r.b r.c v := fun v hv =>
    ⟨o, by rw [er r.a (by simp [Tri.toList]), er r.b (by simp [Tri.toList])], by rw [er r.b (by simp [Tri.toList]), er r.c (by simp [Tri.toList])], by rw [er r.c (by simp [Tri.toList]), hv]⟩
  have tot := ho.total t ((h.complex b).proper t ht)
  have tp : ∀ v ∈ r.toList, v ∉ p.toList → Tie (ord t) p v := fun v hv hn =>
    hc b t ht p hp v (q_mark hu hct hcu (qr v hv)) hn (centre p) (inner_centre p) (piece_sees h ht hu hw hp hpu (qr v hv)) (cop v (er v hv))
  have tr : ∀ v ∈ p.toList, v ∉ r.toList → Tie (ord u) r v := fun v hv hn =>
    hc (!b) u hu r hr v (q_mark ht' hcu hct' (q_comm.1 (qp v hv))) hn (centre r) (inner_centre r) (piece_sees h hu ht' (wide_comm hw) hr hrt (q_comm.1 (qp v hv))) (cor v (ep v hv))
  refine tie_unique (lt := ord t) (S := LiesIn t) (ho.irrefl t) (ho.trans t) tot pp pr (fun v hv => inp (qp v hv)) (fun v hv => inp (qr v hv)) ep er tp ?_ yp yr
  intro v hv hn
  have htie := tr v hv hn
  refine tie_flip (lt' := ord u) (S := LiesIn u) (ho.trans u) (ho.total u ((h.complex (!b)).proper u hu)) pr hn (fun v hv => inPlane_of (plane_in (qr v hv).1.2)) (inPlane_of (plane_in (qp v hv).1.2)) er (ep v hv) ?_ htie
  intro w x y z mw mx my mz hyz l1 l2 l3 l4 l5 l6
  have q : ∀ {z}, z = v ∨ z ∈ r.toList → Q t u z ∧ dist2 o z = d := by
    rintro z (rfl | hz)
    · exact ⟨qp _ hv, ep _ hv⟩
    · exact ⟨qr _ hz, er _ hz⟩
  have qw := q mw; have qx := q mx; have qy := q my; have qz := q mz
  cases b
  · exact opposed_swap (hs u hu t ht k⁻¹ (inv_ne_zero hk) (multiple_swap hk mul) x w y z (q_iff.2 (q_comm.1 qx.1)) (q_iff.2 (q_comm.1 qw.1)) (q_iff.2 (q_comm.1 qy.1)) (q_iff.2 (q_comm.1 qz.1)) hyz
      ⟨o, by rw [qx.2, qw.2], by rw [qw.2, qy.2], by rw [qy.2, qz.2]⟩ l4 l5 l6 l1 l2 l3)
  · exact hs t ht u hu k hk mul w x y z (q_iff.2 qw.1) (q_iff.2 qx.1) (q_iff.2 qy.1) (q_iff.2 qz.1) hyz ⟨o, by rw [qw.2, qx.2], by rw [qx.2, qy.2], by rw [qy.2, qz.2]⟩ l1 l2 l3 l4 l5 l6

/-- However ties are broken, pieces in the common part of two triangles in a plane are the same. -/
def Settled (ord : Tri P3 → P3 → P3 → Prop) (op : Bool → List (Tri P3)) : Prop := ∀ cut, Cuts op cut → TiesCut ord op cut → Agree op cut

theorem settled_noFour {ord : Tri P3 → P3 → P3 → Prop} (hg : NoFourOnCircle op) : Settled ord op := fun _ h _ => agree_of h hg

theorem settled_ties {ord : Tri P3 → P3 → P3 → Prop} (ho : Orders ord) (hs : SplitCircles ord op) : Settled ord op := fun _ h hc => agree_ties h ho hs hc

/-- A triangulation of a triangle without further vertices. -/
theorem ties_self {lt : P3 → P3 → Prop} {t : Tri P3} {V : P3 → Prop} {S : P3 → P3 → Prop} (hV : ∀ x, V x → False) : TiesBy lt t V S [t] := by
  intro p hp v hv hn
  simp only [List.mem_singleton] at hp
  subst hp
  rcases hv with hv | hv
  · exact (hV v hv).elim
  · exact absurd hv hn

theorem ties_congr {lt : P3 → P3 → Prop} {t : Tri P3} {V V' : P3 → Prop} {S S' : P3 → P3 → Prop} {ps : List (Tri P3)} (h : TiesBy lt t V S ps) (hV : ∀ x, V' x → V x ∨ x ∈ t.toList) (hS : ∀ {c d}, S c d → S' c d ∨ S' d c) : TiesBy lt t V' S' ps := by
  intro p hp v hv hn y hy hs
  refine h p hp v ?_ hn y hy ?_
  · rcases hv with hv | hv
    · exact hV v hv
    · exact .inr hv
  · intro x hx hne c d hcd hon
    rcases hS hcd with h | h
    · exact hs x hx hne _ _ h hon
    · exact hs x hx hne _ _ h (onSegment_swap hon)

end Kigumi.Cutting
