import Verif.Proofs.Crossing
import Verif.Proofs.SideGeometry
import Verif.Proofs.Cells
import Verif.Spec.Rays
import Verif.Tactics

/-!
# A triangle is not covered by finitely many segments
-/
namespace Kigumi.Crossing
open Kigumi Spec.Triangles Spec.Side
open Kigumi.Spec (P3)
open Kigumi.FaceFace (p3_ext)
open Kigumi.Side (Aff ok_of_proper avoid in_a in_b in_c)
open Kigumi.Geo (dot)

theorem multiple {w1 w2 w3 u1 u2 u3 : ℚ} (hw : ¬ (w1 = 0 ∧ w2 = 0 ∧ w3 = 0)) (h1 : w2 * u3 - w3 * u2 = 0) (h2 : w3 * u1 - w1 * u3 = 0) (h3 : w1 * u2 - w2 * u1 = 0) : ∃ k, u1 = k * w1 ∧ u2 = k * w2 ∧ u3 = k * w3 := by
  by_cases e1 : w1 = 0
  · by_cases e2 : w2 = 0
    · have e3 : w3 ≠ 0 := fun e3 => hw ⟨e1, e2, e3⟩
      refine ⟨u3 / w3, ?_, ?_, ?_⟩ <;> field_simp <;> linarith
    · refine ⟨u2 / w2, ?_, ?_, ?_⟩ <;> field_simp <;> linarith
  · refine ⟨u1 / w1, ?_, ?_, ?_⟩ <;> field_simp <;> linarith

/-- If two triangles have no triangle in common, their common points are on a line, which does not contain a given triangle. -/
theorem line_of {p t u : Tri P3} (hp : Proper p) (h : ∀ q, Proper q → ¬ ∀ x, In q x → Common t u x) : ∃ f : Aff, (∀ x, Common t u x → f.eval x = 0) ∧ ∃ z, In p z ∧ f.eval z ≠ 0 := by
  by_cases hc : ∃ c, Common t u c
  · obtain ⟨c, hc⟩ := hc
    by_cases hd : ∃ d, Common t u d ∧ d ≠ c
    · obtain ⟨d, hd, hne⟩ := hd
      have line : ∀ x, Common t u x → outward ⟨c, d, x⟩ = ⟨0, 0, 0⟩ := by
        intro x hx
        by_contra hk
        exact h ⟨c, d, x⟩ hk fun z hz => ⟨in_hull hc.1 hd.1 hx.1 hz, in_hull hc.2 hd.2 hx.2 hz⟩
      by_contra hno
      push Not at hno
      have key : ∀ z, In p z → outward ⟨c, d, z⟩ = ⟨0, 0, 0⟩ := by
        intro z hz
        have n1 := hno ⟨⟨0, -(d.z - c.z), d.y - c.y⟩, -(d.y - c.y) * c.z + (d.z - c.z) * c.y⟩ (by
          intro x hx
          have := congrArg P3.x (line x hx)
          simp only [outward] at this
          simp only [Aff.eval, dot]; linarith) z hz
        have n2 := hno ⟨⟨d.z - c.z, 0, -(d.x - c.x)⟩, -(d.z - c.z) * c.x + (d.x - c.x) * c.z⟩ (by
          intro x hx
          have := congrArg P3.y (line x hx)
          simp only [outward] at this
          simp only [Aff.eval, dot]; linarith) z hz
        have n3 := hno ⟨⟨-(d.y - c.y), d.x - c.x, 0⟩, -(d.x - c.x) * c.y + (d.y - c.y) * c.x⟩ (by
          intro x hx
          have := congrArg P3.z (line x hx)
          simp only [outward] at this
          simp only [Aff.eval, dot]; linarith) z hz
        simp only [Aff.eval, dot] at n1 n2 n3
        apply p3_ext <;> simp only [outward] <;> linarith
      have ka := key _ (in_a p)
      have kb := key _ (in_b p)
      have kc := key _ (in_c p)
      simp only [outward, P3.mk.injEq] at ka kb kc
      have hw : ¬ (d.x - c.x = 0 ∧ d.y - c.y = 0 ∧ d.z - c.z = 0) := fun ⟨e1, e2, e3⟩ => hne (p3_ext (by linarith) (by linarith) (by linarith))
      obtain ⟨k, k1, k2, k3⟩ := multiple (u1 := p.b.x - p.a.x) (u2 := p.b.y - p.a.y) (u3 := p.b.z - p.a.z) hw (by linarith [ka.1, kb.1]) (by linarith [ka.2.1, kb.2.1]) (by linarith [ka.2.2, kb.2.2])
      obtain ⟨l, l1, l2, l3⟩ := multiple (u1 := p.c.x - p.a.x) (u2 := p.c.y - p.a.y) (u3 := p.c.z - p.a.z) hw (by linarith [ka.1, kc.1]) (by linarith [ka.2.1, kc.2.1]) (by linarith [ka.2.2, kc.2.2])
      apply hp
      apply p3_ext <;> simp only [outward, k1, k2, k3, l1, l2, l3] <;> ring
    · have only : ∀ x, Common t u x → x = c := by
        intro x hx
        by_contra hk
        exact hd ⟨x, hx, hk⟩
      by_contra hno
      push Not at hno
      have key : ∀ z, In p z → z = c := by
        intro z hz
        have n1 := hno ⟨⟨1, 0, 0⟩, -c.x⟩ (by intro x hx; rw [only x hx]; simp only [Aff.eval, dot]; ring) z hz
        have n2 := hno ⟨⟨0, 1, 0⟩, -c.y⟩ (by intro x hx; rw [only x hx]; simp only [Aff.eval, dot]; ring) z hz
        have n3 := hno ⟨⟨0, 0, 1⟩, -c.z⟩ (by intro x hx; rw [only x hx]; simp only [Aff.eval, dot]; ring) z hz
        simp only [Aff.eval, dot] at n1 n2 n3
        exact p3_ext (by linarith) (by linarith) (by linarith)
      apply hp
      have ha := key _ (in_a p); have hb := key _ (in_b p)
      apply p3_ext <;> simp only [outward, ha, hb] <;> ring
  · exact ⟨⟨⟨0, 0, 0⟩, 1⟩, fun x hx => absurd ⟨x, hx⟩ hc, p.a, in_a p, by simp [Aff.eval, dot]⟩

/-- **Finitely many common parts without area do not cover a triangle.** -/
theorem cover {p : Tri P3} (hp : Proper p) (L : List (Tri P3 × Tri P3)) (h : ∀ x, In p x → ∃ q ∈ L, Common q.1 q.2 x) : ∃ q ∈ L, ∃ p', Proper p' ∧ ∀ x, In p' x → Common q.1 q.2 x := by
  by_contra hno
  push Not at hno
  have : ∀ q : Tri P3 × Tri P3, ∃ f : Aff, q ∈ L → (∀ x, Common q.1 q.2 x → f.eval x = 0) ∧ ∃ z, In p z ∧ f.eval z ≠ 0 := by
    intro q
    by_cases hq : q ∈ L
    · obtain ⟨f, hf⟩ := line_of (t := q.1) (u := q.2) hp (fun p' hp' hall => by
        obtain ⟨x, hx, hn⟩ := hno q hq p' hp'
        exact hn (hall x hx))
      exact ⟨f, fun _ => hf⟩
    · exact ⟨⟨⟨0, 0, 0⟩, 1⟩, fun k => absurd k hq⟩
  choose g hg using this
  obtain ⟨y, hy, hall⟩ := avoid (ok_of_proper hp) (L.map g) (by
    intro f hf
    obtain ⟨q, hq, rfl⟩ := List.mem_map.1 hf
    exact (hg q hq).2)
  obtain ⟨q, hq, hc⟩ := h y hy
  exact hall _ (List.mem_map_of_mem hq) ((hg q hq).1 y hc)

/-! ## Convex results -/
open Kigumi.Space
open Kigumi.Side (near_mono near_trans near_refl Ok plane)

/-- Close to every point of a solid or its surface there are points of the solid that are not on given triangles. -/
theorem dense {ts W : List (Tri P3)} {χ : P3 → Prop} (hc : Complex ts) (ho : Once ts) (hb : Bounds ts χ) (hok : ∀ t ∈ W, Ok t) {y : P3} (hy : χ y ∨ Surface ts y) {e : ℚ} (he : 0 < e) : ∃ y', Near e y' y ∧ χ y' ∧ ¬ Surface W y' := by
  have okt : ∀ t ∈ ts, Ok t := fun t ht => ok_of_proper (hc.proper t ht)
  have off : ∀ n, χ n → ¬ Surface ts n → ∀ e : ℚ, 0 < e → ∃ y', Near e y' n ∧ χ y' ∧ ¬ Surface W y' := by
    intro n hn hs e he
    obtain ⟨e0, h0, hfree⟩ := ball okt hs
    obtain ⟨y', h1, -, h2⟩ := off_near hok n (lt_min he h0)
    exact ⟨y', near_mono (min_le_left _ _) h1, (hb.const n y' (hfree n y' (near_refl h0.le n) (near_mono (min_le_right _ _) h1))).1 hn, h2⟩
  by_cases hs : Surface ts y
  · obtain ⟨t, ht, hin⟩ := hs
    obtain ⟨i, hi⟩ := List.mem_iff_getElem?.1 ht
    obtain ⟨m, hm, nm⟩ := inner_near hin (half_pos he)
    obtain ⟨e1, he1, hj⟩ := hb.jump i t m hi (part_singly hc (fun t ht => ⟨t, ht, match_refl t⟩) ho hi hm)
    obtain ⟨e2, he2, hst⟩ := strip hc ht hm hm
    obtain ⟨d, hd, hstep⟩ := step (okt t ht) (inner_in hm) (-1) (.inr rfl) (lt_min he2 (half_pos (half_pos he)))
    obtain ⟨h1, h2⟩ := hstep (min d e1) (lt_min hd he1) (min_le_left _ _)
    have e' : (-1 : ℚ) * min d e1 = -min d e1 := by ring
    rw [e'] at h1 h2
    have hn := (hj (min d e1) (lt_min hd he1) (min_le_right _ _)).1
    generalize shift m (-min d e1) (outward t) = n at *
    obtain ⟨y', k1, k2, k3⟩ := off n hn (fun hs => hst n n (near_mono (min_le_left _ _) h1) (near_mono (min_le_left _ _) h1) ⟨-1, h2, h2⟩ n (Side.left_end n n) hs) _ (half_pos (half_pos he))
    refine ⟨y', near_mono ?_ (near_trans (near_trans k1 (near_mono (min_le_right _ _) h1)) nm), k2, k3⟩
    linarith
  · exact off y (hy.resolve_right hs) hs e he

/-- **A solid that is a convex set, apart from points of finitely many triangles, is convex.** -/
theorem convex_of {ts W : List (Tri P3)} {χ C : P3 → Prop} (hc : Complex ts) (ho : Once ts) (hb : Bounds ts χ) (hok : ∀ t ∈ W, Ok t) (hsub : ∀ x, Surface ts x → Surface W x) (hC : ConvexSet C) (hag : ∀ x, ¬ Surface W x → (χ x ↔ C x)) :
    ConvexSet fun x => χ x ∨ Surface ts x := by
  rintro y z x hy hz ⟨u, v, one, u0, v0, rfl⟩
  by_contra hx
  push Not at hx
  obtain ⟨hx, hs⟩ := hx
  have okt : ∀ t ∈ ts, Ok t := fun t ht => ok_of_proper (hc.proper t ht)
  obtain ⟨e0, h0, hfree⟩ := ball okt hs
  rcases eq_or_lt_of_le u0 with rfl | u0
  · obtain rfl : v = 1 := by linarith
    have : (⟨0 * y.x + 1 * z.x, 0 * y.y + 1 * z.y, 0 * y.z + 1 * z.z⟩ : P3) = z := by apply p3_ext <;> simp
    rw [this] at hx hs
    exact hz.elim hx hs
  obtain ⟨y', ny, cy, sy⟩ := dense hc ho hb hok hy (half_pos h0)
  obtain ⟨z', nz, cz, sz⟩ := dense hc ho hb hok hz (half_pos h0)
  obtain ⟨e1, h1, hf1⟩ := ball hok sy
  have h2 : 0 < min e1 (e0 / 2) := lt_min h1 (half_pos h0)
  obtain ⟨x', nx, -, sx⟩ := off_near hok ⟨u * y'.x + v * z'.x, u * y'.y + v * z'.y, u * y'.z + v * z'.z⟩ (mul_pos u0 h2)
  let y'' : P3 := ⟨y'.x + (x'.x - (u * y'.x + v * z'.x)) / u, y'.y + (x'.y - (u * y'.y + v * z'.y)) / u, y'.z + (x'.z - (u * y'.z + v * z'.z)) / u⟩
  have hn : ∀ a : ℚ, -(u * min e1 (e0 / 2)) ≤ a → a ≤ u * min e1 (e0 / 2) → -e1 ≤ a / u ∧ a / u ≤ e1 := by
    intro a ha hb
    have : u * min e1 (e0 / 2) ≤ u * e1 := mul_le_mul_of_nonneg_left (min_le_left _ _) u0.le
    constructor
    · rw [le_div_iff₀ u0]; linarith
    · rw [div_le_iff₀ u0]; linarith
  have ny'' : Near e1 y'' y' := by
    obtain ⟨a1, a2, a3, a4, a5, a6⟩ := nx
    obtain ⟨b1, b2⟩ := hn _ a1 a2
    obtain ⟨b3, b4⟩ := hn _ a3 a4
    obtain ⟨b5, b6⟩ := hn _ a5 a6
    simp only [Near, y'']
    refine ⟨by linarith, by linarith, by linarith, by linarith, by linarith, by linarith⟩
  have cy'' : C y'' := by
    have hf := hf1 y' y'' (near_refl h1.le y') ny''
    exact (hag y'' (hf y'' (Side.right_end _ _))).1 ((hb.const y' y'' fun w hw hsw => hf w hw (hsub w hsw)).1 cy)
  have cx : χ x' := (hag x' sx).2 (hC y'' z' x' cy'' ((hag z' sz).1 cz) ⟨u, v, one, u0.le, v0, by
    apply p3_ext <;> simp only [y''] <;> field_simp <;> ring⟩)
  refine hx ((hb.const _ x' (hfree _ x' (near_refl h0.le _) ?_)).2 cx)
  have hle : u * min e1 (e0 / 2) ≤ e0 / 2 := by
    have a1 : u * min e1 (e0 / 2) ≤ 1 * min e1 (e0 / 2) := mul_le_mul_of_nonneg_right (by linarith) h2.le
    have a2 := min_le_right e1 (e0 / 2)
    linarith
  have hmid : Near (e0 / 2) (⟨u * y'.x + v * z'.x, u * y'.y + v * z'.y, u * y'.z + v * z'.z⟩ : P3) ⟨u * y.x + v * z.x, u * y.y + v * z.y, u * y.z + v * z.z⟩ := by
    obtain ⟨a1, a2, a3, a4, a5, a6⟩ := ny
    obtain ⟨b1, b2, b3, b4, b5, b6⟩ := nz
    obtain rfl : u = 1 - v := by linarith
    have w : ∀ a b : ℚ, -(e0 / 2) ≤ a → a ≤ e0 / 2 → -(e0 / 2) ≤ b → b ≤ e0 / 2 → -(e0 / 2) ≤ (1 - v) * a + v * b ∧ (1 - v) * a + v * b ≤ e0 / 2 := by
      intro a b h1 h2 h3 h4
      constructor <;> nlinarith
    have w1 := w _ _ a1 a2 b1 b2
    have w2 := w _ _ a3 a4 b3 b4
    have w3 := w _ _ a5 a6 b5 b6
    simp only [Near]
    refine ⟨by linarith, by linarith, by linarith, by linarith, by linarith, by linarith⟩
  exact near_mono (by linarith) (near_trans (near_mono hle nx) hmid)

end Kigumi.Crossing
