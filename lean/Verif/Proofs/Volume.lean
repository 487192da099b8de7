import Verif.Proofs.Area
import Verif.Proofs.Mixed
import Verif.Spec.Volume

/-!
# Volumes of refined surfaces
-/
namespace Kigumi.Space
open Kigumi Geo Spec.Triangles Spec.Side FaceFace
open Kigumi.Spec (SameTri)
open Kigumi.Area (T2 InQ InnerQ)

/-- A projection to a plane along a coordinate axis. -/
structure Drop (π : P3 → Fin 2 → ℚ) (n : P3 → ℚ) : Prop where
  linear : ∀ w0 w1 w2 a b c k, π (combo w0 w1 w2 a b c) k = w0 * π a k + w1 * π b k + w2 * π c k
  cross : ∀ t : Tri P3, Area.cross ⟨π t.a, π t.b, π t.c⟩ = n (outward t)
  inj : ∀ N x y : P3, n N ≠ 0 → π x = π y → N.x * x.x + N.y * x.y + N.z * x.z = N.x * y.x + N.y * y.y + N.z * y.z → x = y
  scale : ∀ k (N : P3), n ⟨k * N.x, k * N.y, k * N.z⟩ = k * n N

theorem drop_x : Drop (fun p => ![p.y, p.z]) (fun p => p.x) where
  linear w0 w1 w2 a b c k := by fin_cases k <;> simp [combo]
  cross t := by simp only [Area.cross, outward, Matrix.cons_val_zero, Matrix.cons_val_one]
  inj N x y hN h e := by
    have h0 := congrFun h 0
    have h1 := congrFun h 1
    simp only [Matrix.cons_val_zero, Matrix.cons_val_one] at h0 h1
    rw [h0, h1] at e
    exact p3_ext (mul_left_cancel₀ hN (by linarith)) h0 h1
  scale k N := rfl

theorem drop_y : Drop (fun p => ![p.z, p.x]) (fun p => p.y) where
  linear w0 w1 w2 a b c k := by fin_cases k <;> simp [combo]
  cross t := by simp only [Area.cross, outward, Matrix.cons_val_zero, Matrix.cons_val_one]
  inj N x y hN h e := by
    have h0 := congrFun h 0
    have h1 := congrFun h 1
    simp only [Matrix.cons_val_zero, Matrix.cons_val_one] at h0 h1
    rw [h0, h1] at e
    exact p3_ext h1 (mul_left_cancel₀ hN (by linarith)) h0
  scale k N := rfl

theorem drop_z : Drop (fun p => ![p.x, p.y]) (fun p => p.z) where
  linear w0 w1 w2 a b c k := by fin_cases k <;> simp [combo]
  cross t := by simp only [Area.cross, outward, Matrix.cons_val_zero, Matrix.cons_val_one]
  inj N x y hN h e := by
    have h0 := congrFun h 0
    have h1 := congrFun h 1
    simp only [Matrix.cons_val_zero, Matrix.cons_val_one] at h0 h1
    rw [h0, h1] at e
    exact p3_ext h0 h1 (mul_left_cancel₀ hN (by linarith))
  scale k N := rfl

theorem exists_drop {t : Tri P3} (h : Proper t) : ∃ π n, Drop π n ∧ n (outward t) ≠ 0 := by
  by_cases hx : (outward t).x = 0
  · by_cases hy : (outward t).y = 0
    · by_cases hz : (outward t).z = 0
      · exact absurd (p3_ext hx hy hz) h
      · exact ⟨_, _, drop_z, hz⟩
    · exact ⟨_, _, drop_y, hy⟩
  · exact ⟨_, _, drop_x, hx⟩

/-- The projected triangle. -/
def flat (π : P3 → Fin 2 → ℚ) (t : Tri P3) : T2 := ⟨π t.a, π t.b, π t.c⟩

theorem flat_in {π : P3 → Fin 2 → ℚ} {n : P3 → ℚ} (h : Drop π n) {t : Tri P3} {x : P3} (hx : In t x) : InQ (flat π t) (π x) := by
  obtain ⟨w0, w1, w2, hs, rfl, h0, h1, h2⟩ := hx
  refine ⟨w1, w2, h1, h2, by linarith, ?_⟩
  funext k
  rw [h.linear]
  simp only [Area.pt, flat]
  have : w0 = 1 - w1 - w2 := by linarith
  rw [this]; ring

theorem in_flat {π : P3 → Fin 2 → ℚ} {n : P3 → ℚ} (h : Drop π n) {t : Tri P3} {q : Fin 2 → ℚ} (hq : InQ (flat π t) q) : ∃ x, In t x ∧ π x = q := by
  obtain ⟨u, v, h0, h1, h2, rfl⟩ := hq
  refine ⟨combo (1 - u - v) u v t.a t.b t.c, ⟨_, _, _, by ring, rfl, by linarith, h0, h1⟩, ?_⟩
  funext k
  rw [h.linear]
  simp only [Area.pt, flat]
  ring

theorem inner_flat {π : P3 → Fin 2 → ℚ} {n : P3 → ℚ} (h : Drop π n) {t : Tri P3} {q : Fin 2 → ℚ} (hq : InnerQ (flat π t) q) : ∃ x, Inner t x ∧ π x = q := by
  obtain ⟨u, v, h0, h1, h2, rfl⟩ := hq
  refine ⟨combo (1 - u - v) u v t.a t.b t.c, ⟨_, _, _, by ring, rfl, ?_, ?_, ?_⟩, ?_⟩
  · simp only [Weight, if_true]; linarith
  · simpa only [Weight, if_true] using h0
  · simpa only [Weight, if_true] using h1
  funext k
  rw [h.linear]
  simp only [Area.pt, flat]
  ring

theorem in_plane {t : Tri P3} {x : P3} (hx : In t x) : (outward t).x * x.x + (outward t).y * x.y + (outward t).z * x.z = (outward t).x * t.a.x + (outward t).y * t.a.y + (outward t).z * t.a.z := by
  obtain ⟨w0, w1, w2, hs, rfl, -⟩ := hx
  have : w0 = 1 - w1 - w2 := by linarith
  subst this
  simp only [outward, combo]
  ring

theorem corner_in (t : Tri P3) : In t t.a ∧ In t t.b ∧ In t t.c := by
  refine ⟨⟨1, 0, 0, by ring, ?_, by decide, le_refl _, le_refl _⟩, ⟨0, 1, 0, by ring, ?_, le_refl _, by decide, le_refl _⟩, ⟨0, 0, 1, by ring, ?_, le_refl _, le_refl _, by decide⟩⟩ <;> apply p3_ext <;> simp only [combo] <;> ring

/-- The sizes of the pieces of a triangle add up. -/
theorem pieces_sum {orig pieces : List (Tri P3)} {src : Nat → Nat} (hr : Refines orig pieces src) (hok : ∀ t ∈ orig, Proper t) (hc : Complex pieces) (ho : Once pieces) {k : Fin pieces.length → ℚ}
    (hk : ∀ (i : Fin pieces.length) t, orig[src i]? = some t → 0 < k i ∧ outward pieces[i] = ⟨k i * (outward t).x, k i * (outward t).y, k i * (outward t).z⟩) {j : Nat} {t : Tri P3} (ht : orig[j]? = some t) :
    ∑ i ∈ Finset.univ.filter (fun i : Fin pieces.length => src i = j), k i = 1 := by
  obtain ⟨π, n, hd, hn⟩ := exists_drop (hok t (List.mem_of_getElem? ht))
  have get : ∀ i : Fin pieces.length, pieces[i.1]? = some pieces[i] := fun i => List.getElem?_eq_getElem i.2
  have piece : ∀ i : Fin pieces.length, src i = j → (∀ x, In pieces[i] x → In t x) ∧ 0 < k i ∧ Area.cross (flat π pieces[i]) = k i * n (outward t) := by
    intro i hi
    obtain ⟨t', ht', hin, -⟩ := hr.part i _ (get i)
    rw [hi, ht] at ht'; cases ht'
    obtain ⟨k1, k2⟩ := hk i t (by rw [hi, ht])
    exact ⟨hin, k1, by unfold flat; rw [hd.cross, k2, hd.scale]⟩
  have ht' : Area.cross (flat π t) = n (outward t) := hd.cross t
  have key := Area.tiles (s := Finset.univ.filter (fun i : Fin pieces.length => src i = j)) (t := flat π t) (ps := fun i => flat π pieces[i]) (by rw [ht']; exact hn)
    (fun i hi => by
      obtain ⟨-, h1, h2⟩ := piece i (Finset.mem_filter.1 hi).2
      rw [h2]; exact mul_ne_zero h1.ne' hn)
    (fun i hi => by
      obtain ⟨h1, -⟩ := piece i (Finset.mem_filter.1 hi).2
      obtain ⟨c1, c2, c3⟩ := corner_in pieces[i]
      exact ⟨flat_in hd (h1 _ c1), flat_in hd (h1 _ c2), flat_in hd (h1 _ c3)⟩)
    (fun q hq => by
      obtain ⟨x, hx, rfl⟩ := in_flat hd hq
      obtain ⟨i, p, hp, hs, hin⟩ := hr.cover j t x ht hx
      have hi := (List.getElem?_eq_some_iff.1 hp).1
      refine ⟨⟨i, hi⟩, Finset.mem_filter.2 ⟨Finset.mem_univ _, hs⟩, ?_⟩
      have := (List.getElem?_eq_some_iff.1 hp).2
      refine flat_in hd ?_
      show In pieces[i] x
      rw [this]; exact hin)
    (fun i hi i' hi' q h1 h2 => by
      obtain ⟨x, hx, ex⟩ := inner_flat hd h1
      obtain ⟨y, hy, ey⟩ := inner_flat hd h2
      have e1 := in_plane ((piece i (Finset.mem_filter.1 hi).2).1 x (inner_in hx))
      have e2 := in_plane ((piece i' (Finset.mem_filter.1 hi').2).1 y (inner_in hy))
      have : x = y := hd.inj _ _ _ hn (ex.trans ey.symm) (e1.trans e2.symm)
      subst this
      obtain ⟨-, -, -, hsing⟩ := part_singly hc (fun t ht => ⟨t, ht, match_refl t⟩) ho (get i) hx
      exact (Fin.ext (hsing i' _ (get i') (inner_in hy))).symm)
  have e : ∀ i ∈ Finset.univ.filter (fun i : Fin pieces.length => src i = j), |Area.cross (flat π pieces[i])| = k i * |n (outward t)| := by
    intro i hi
    obtain ⟨-, h1, h2⟩ := piece i (Finset.mem_filter.1 hi).2
    rw [h2, abs_mul, abs_of_pos h1]
  rw [Finset.sum_congr rfl e, ← Finset.sum_mul, ht'] at key
  exact mul_right_cancel₀ (abs_ne_zero.2 hn) (by rw [key, one_mul])

/-- **Cutting does not change the enclosed volume.** -/
theorem enclosed_refines {orig pieces : List (Tri P3)} {src : Nat → Nat} (hr : Refines orig pieces src) (hok : ∀ t ∈ orig, Proper t) (hc : Complex pieces) (ho : Once pieces) (o : P3) : enclosed o pieces = enclosed o orig := by
  have get : ∀ i : Fin pieces.length, pieces[i.1]? = some pieces[i] := fun i => List.getElem?_eq_getElem i.2
  choose t ht hin k hk hout using fun i : Fin pieces.length => hr.part i _ (get i)
  have hk' : ∀ (i : Fin pieces.length) s, orig[src i]? = some s → 0 < k i ∧ outward pieces[i] = ⟨k i * (outward s).x, k i * (outward s).y, k i * (outward s).z⟩ := by
    intro i s hs
    rw [ht i] at hs; cases hs
    exact ⟨hk i, hout i⟩
  have hsrc : ∀ i : Fin pieces.length, src i < orig.length := fun i => (List.getElem?_eq_some_iff.1 (ht i)).1
  have hcone : ∀ i : Fin pieces.length, cone o pieces[i] = k i * cone o (orig[src i]'(hsrc i)) := by
    intro i
    have e : (orig[src i]'(hsrc i)) = t i := (List.getElem?_eq_some_iff.1 (ht i)).2
    have hp := in_plane (hin i _ (corner_in pieces[i]).1)
    rw [e]
    simp only [cone, hout i]
    linear_combination k i * hp
  unfold enclosed
  rw [← Fin.sum_univ_fun_getElem, ← Fin.sum_univ_fun_getElem]
  calc (∑ i : Fin pieces.length, cone o pieces[i.1]) = ∑ i : Fin pieces.length, k i * cone o (orig[src i]'(hsrc i)) := Finset.sum_congr rfl fun i _ => hcone i
    _ = ∑ j : Fin orig.length, ∑ i ∈ Finset.univ.filter (fun i : Fin pieces.length => (⟨src i, hsrc i⟩ : Fin orig.length) = j), k i * cone o (orig[src i]'(hsrc i)) := (Finset.sum_fiberwise _ _ _).symm
    _ = ∑ j : Fin orig.length, cone o orig[j.1] := Finset.sum_congr rfl fun j _ => by
      have h1 : ∀ i ∈ Finset.univ.filter (fun i : Fin pieces.length => (⟨src i, hsrc i⟩ : Fin orig.length) = j), k i * cone o (orig[src i]'(hsrc i)) = k i * cone o orig[j.1] := by
        intro i hi
        have := (Finset.mem_filter.1 hi).2
        subst this; rfl
      rw [Finset.sum_congr rfl h1, ← Finset.sum_mul]
      have h2 := pieces_sum hr hok hc ho hk' (List.getElem?_eq_getElem j.2)
      have h3 : (Finset.univ.filter (fun i : Fin pieces.length => (⟨src i, hsrc i⟩ : Fin orig.length) = j)) = Finset.univ.filter (fun i : Fin pieces.length => src i = j.1) := by
        ext i; simp [Fin.ext_iff]
      rw [h3, h2, one_mul]

end Kigumi.Space
