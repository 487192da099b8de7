import Verif.Proofs.Side
import Mathlib.Data.List.Sort

/-! # An exact intersection of a ray and a triangle, by clipping: what is assumed can be had -/
namespace Kigumi.Side
open Kigumi Outcome Geo Spec.Triangles Spec.Side FaceFace

/-- A closed interval that may be unbounded above, or nothing. -/
abbrev Iv := Option (ℚ × Option ℚ)

def Iv.Mem (v : Iv) (s : ℚ) : Prop := match v with
  | none => False
  | some (lo, hi) => lo ≤ s ∧ ∀ h, hi = some h → s ≤ h

/-- An empty interval becomes nothing. -/
def norm (lo : ℚ) : Option ℚ → Iv
  | none => some (lo, none)
  | some h => if h < lo then none else some (lo, some h)

/-- Keep the part where `a + s b` is not negative. -/
def clip (v : Iv) (a b : ℚ) : Iv := match v with
  | none => none
  | some (lo, hi) =>
    if b = 0 then if 0 ≤ a then some (lo, hi) else none
    else if 0 < b then norm (max lo (-a / b)) hi
    else norm lo (some (match hi with | none => -a / b | some h => min h (-a / b)))

theorem norm_mem (lo : ℚ) (hi : Option ℚ) (s : ℚ) : Iv.Mem (norm lo hi) s ↔ lo ≤ s ∧ ∀ h, hi = some h → s ≤ h := by
  cases hi with
  | none => simp [norm, Iv.Mem]
  | some h =>
    unfold norm
    dsimp only
    by_cases hh : h < lo
    · rw [if_pos hh]
      simp only [Iv.Mem, Option.some.injEq, forall_eq', false_iff, not_and, not_le]
      intro h1; linarith
    · rw [if_neg hh]; simp [Iv.Mem]

theorem clip_mem (v : Iv) (a b s : ℚ) : (clip v a b).Mem s ↔ v.Mem s ∧ 0 ≤ a + s * b := by
  cases v with
  | none => simp [clip, Iv.Mem]
  | some v =>
    obtain ⟨lo, hi⟩ := v
    unfold clip
    dsimp only
    by_cases hb : b = 0
    · rw [if_pos hb]
      subst hb
      by_cases ha : 0 ≤ a
      · rw [if_pos ha]; simp [ha]
      · rw [if_neg ha]; simp [Iv.Mem, ha]
    · rw [if_neg hb]
      by_cases hb' : 0 < b
      · rw [if_pos hb', norm_mem, max_le_iff]
        have : -a / b ≤ s ↔ 0 ≤ a + s * b := by rw [div_le_iff₀ hb']; constructor <;> intro h <;> linarith
        rw [this]; simp only [Iv.Mem]; tauto
      · rw [if_neg hb', norm_mem]
        have hb'' : b < 0 := lt_of_le_of_ne (not_lt.1 hb') hb
        have : s ≤ -a / b ↔ 0 ≤ a + s * b := by
          rw [show -a / b = a / (-b) by rw [div_neg, neg_div], le_div_iff₀ (by linarith : 0 < -b)]; constructor <;> intro h <;> linarith
        cases hi with
        | none => simp only [Option.some.injEq, forall_eq', Iv.Mem, this, reduceCtorEq, IsEmpty.forall_iff, implies_true, and_true]
        | some h => simp only [Option.some.injEq, forall_eq', Iv.Mem, le_min_iff, this]; tauto

/-- Lower ends are not above upper ends. -/
def Iv.Good (v : Iv) : Prop := ∀ lo h, v = some (lo, some h) → lo ≤ h

theorem norm_good (lo : ℚ) (hi : Option ℚ) : (norm lo hi : Iv).Good := by
  intro l h e
  cases hi with
  | none => simp [norm] at e
  | some h' =>
    unfold norm at e
    dsimp only at e
    by_cases hh : h' < lo
    · rw [if_pos hh] at e; cases e
    · rw [if_neg hh] at e; cases e; exact not_lt.1 hh

theorem clip_good {v : Iv} (h : v.Good) (a b : ℚ) : (clip v a b).Good := by
  cases v with
  | none => intro l h e; simp [clip] at e
  | some v =>
    obtain ⟨lo, hi⟩ := v
    unfold clip
    dsimp only
    split
    · split
      · exact h
      · intro l h e; cases e
    · split <;> exact norm_good _ _

/-- The point of the ray. -/
def rayPt (p q : P3) (s : ℚ) : P3 := ⟨p.x + s * (q.x - p.x), p.y + s * (q.y - p.y), p.z + s * (q.z - p.z)⟩

/-- The part of the ray in the triangle. -/
def part (t : Tri P3) (p q : P3) : Iv := (sides t).foldl (fun v f => clip v (f.eval p) (f.eval q - f.eval p)) (some (0, none))

def exactHit (a b c p q : P3) : Hit := match part ⟨a, b, c⟩ p q with
  | some (lo, some hi) => if lo = hi then .point (rayPt p q lo) else .segment (rayPt p q lo) (rayPt p q hi)
  | _ => .none

theorem fold_mem (l : List Aff) (p q : P3) (v : Iv) (s : ℚ) :
    Iv.Mem (l.foldl (fun v f => clip v (f.eval p) (f.eval q - f.eval p)) v) s ↔ v.Mem s ∧ ∀ f ∈ l, 0 ≤ f.eval (rayPt p q s) := by
  induction l generalizing v with
  | nil => simp
  | cons f l ih =>
    rw [List.foldl_cons, ih, clip_mem, List.forall_mem_cons]
    have : f.eval (rayPt p q s) = f.eval p + s * (f.eval q - f.eval p) := eval_ray f p q s
    rw [this]; tauto

theorem fold_good (l : List Aff) (p q : P3) (v : Iv) (h : v.Good) : Iv.Good (l.foldl (fun v f => clip v (f.eval p) (f.eval q - f.eval p)) v) := by
  induction l generalizing v with
  | nil => exact h
  | cons f l ih => exact ih _ (clip_good h _ _)

theorem part_mem {t : Tri P3} (ht : Ok t) (p q : P3) (s : ℚ) : (part t p q).Mem s ↔ 0 ≤ s ∧ In t (rayPt p q s) := by
  unfold part
  rw [fold_mem, in_iff ht]
  simp [Iv.Mem]

theorem part_good (t : Tri P3) (p q : P3) : (part t p q).Good := fold_good _ _ _ _ (by intro l h e; cases e)

/-- A triangle is bounded. -/
theorem in_bounded (t : Tri P3) : ∃ M : ℚ, ∀ x, In t x → Near M x ⟨0, 0, 0⟩ := by
  refine ⟨(|t.a.x| + |t.b.x| + |t.c.x|) + (|t.a.y| + |t.b.y| + |t.c.y|) + (|t.a.z| + |t.b.z| + |t.c.z|), ?_⟩
  rintro x ⟨u, v, w, hs, rfl, hu, hv, hw⟩
  have k : ∀ a b c : ℚ, |u * a + v * b + w * c| ≤ |a| + |b| + |c| := by
    intro a b c
    have h1 : |u * a| ≤ |a| := by rw [abs_mul, abs_of_nonneg hu]; exact mul_le_of_le_one_left (abs_nonneg _) (by linarith)
    have h2 : |v * b| ≤ |b| := by rw [abs_mul, abs_of_nonneg hv]; exact mul_le_of_le_one_left (abs_nonneg _) (by linarith)
    have h3 : |w * c| ≤ |c| := by rw [abs_mul, abs_of_nonneg hw]; exact mul_le_of_le_one_left (abs_nonneg _) (by linarith)
    have h4 := abs_add_le (u * a + v * b) (w * c)
    have h5 := abs_add_le (u * a) (v * b)
    linarith
  have nn : ∀ a b c : ℚ, 0 ≤ |a| + |b| + |c| := fun a b c => by have := abs_nonneg a; have := abs_nonneg b; have := abs_nonneg c; linarith
  have x1 := abs_le.1 (k t.a.x t.b.x t.c.x); have y1 := abs_le.1 (k t.a.y t.b.y t.c.y); have z1 := abs_le.1 (k t.a.z t.b.z t.c.z)
  have x2 := nn t.a.x t.b.x t.c.x; have y2 := nn t.a.y t.b.y t.c.y; have z2 := nn t.a.z t.b.z t.c.z
  simp only [Near, combo, sub_zero]
  refine ⟨by linarith [x1.1], by linarith [x1.2], by linarith [y1.1], by linarith [y1.2], by linarith [z1.1], by linarith [z1.2]⟩

/-- A coordinate grows beyond all bounds. -/
theorem grows {a d M : ℚ} (hd : d ≠ 0) (lo : ℚ) : ∃ s, lo ≤ s ∧ 0 ≤ s ∧ ¬ (-M ≤ a + s * d ∧ a + s * d ≤ M) := by
  have hd' : 0 < |d| := abs_pos.2 hd
  have hM := abs_nonneg M; have ha := abs_nonneg a; have hl := abs_nonneg lo
  have hq : 0 ≤ (|M| + |a| + 1) / |d| := div_nonneg (by linarith) hd'.le
  refine ⟨|lo| + (|M| + |a| + 1) / |d|, ?_, by linarith, ?_⟩
  · linarith [le_abs_self lo]
  · rintro h
    have h1 : |a + (|lo| + (|M| + |a| + 1) / |d|) * d| ≤ M := abs_le.2 h
    have h2 : |(|lo| + (|M| + |a| + 1) / |d|) * d| = |lo| * |d| + (|M| + |a| + 1) := by
      rw [abs_mul, abs_of_nonneg (by linarith), add_mul, div_mul_cancel₀ _ hd'.ne']
    have h3 : |(|lo| + (|M| + |a| + 1) / |d|) * d| ≤ |a + (|lo| + (|M| + |a| + 1) / |d|) * d| + |a| := by
      have := abs_sub (a + (|lo| + (|M| + |a| + 1) / |d|) * d) a
      rwa [add_sub_cancel_left] at this
    have h4 := le_abs_self M
    have h5 : 0 ≤ |lo| * |d| := mul_nonneg hl hd'.le
    linarith

theorem part_bounded {t : Tri P3} (ht : Ok t) {p q : P3} (hpq : p ≠ q) (lo : ℚ) : part t p q ≠ some (lo, none) := by
  intro e
  obtain ⟨M, hM⟩ := in_bounded t
  have mem : ∀ s, lo ≤ s → 0 ≤ s → Near M (rayPt p q s) ⟨0, 0, 0⟩ := by
    intro s h _
    have := (part_mem ht p q s).1 (by rw [e]; exact ⟨h, by simp⟩)
    exact hM _ this.2
  have : q.x - p.x ≠ 0 ∨ q.y - p.y ≠ 0 ∨ q.z - p.z ≠ 0 := by
    by_contra h
    push Not at h
    exact hpq (p3_ext (by linarith [h.1]) (by linarith [h.2.1]) (by linarith [h.2.2]))
  rcases this with h | h | h
  · obtain ⟨s, h1, h2, h3⟩ := grows (a := p.x) (M := M) h lo
    have := mem s h1 h2
    simp only [Near, rayPt, sub_zero] at this
    exact h3 ⟨this.1, this.2.1⟩
  · obtain ⟨s, h1, h2, h3⟩ := grows (a := p.y) (M := M) h lo
    have := mem s h1 h2
    simp only [Near, rayPt, sub_zero] at this
    exact h3 ⟨this.2.2.1, this.2.2.2.1⟩
  · obtain ⟨s, h1, h2, h3⟩ := grows (a := p.z) (M := M) h lo
    have := mem s h1 h2
    simp only [Near, rayPt, sub_zero] at this
    exact h3 ⟨this.2.2.2.2.1, this.2.2.2.2.2⟩

theorem rayPt_inj {p q : P3} (hpq : p ≠ q) {s t : ℚ} (h : rayPt p q s = rayPt p q t) : s = t := by
  by_contra hst
  apply hpq
  have hst' : s - t ≠ 0 := fun h => hst (by linarith)
  have hx := congrArg Spec.P3.x h; have hy := congrArg Spec.P3.y h; have hz := congrArg Spec.P3.z h
  simp only [rayPt] at hx hy hz
  have k : ∀ a b : ℚ, a + s * (b - a) = a + t * (b - a) → a = b := by
    intro a b h
    have : (s - t) * (b - a) = 0 := by linear_combination h
    have := (mul_eq_zero.1 this).resolve_left hst'
    linarith
  exact p3_ext (k _ _ hx) (k _ _ hy) (k _ _ hz)

/-- **Clipping is exact.** -/
theorem exactHit_describes {t : Tri P3} (ht : Ok t) {p q : P3} (hpq : p ≠ q) : (exactHit t.a t.b t.c p q).Describes (fun x => In t x ∧ OnRay p q x) := by
  have hm := part_mem ht p q
  have hg := part_good t p q
  have hb := part_bounded ht hpq
  unfold exactHit
  show Hit.Describes _ (match part t p q with
    | some (lo, some hi) => if lo = hi then .point (rayPt p q lo) else .segment (rayPt p q lo) (rayPt p q hi)
    | _ => .none)
  generalize part t p q = v at hm hg hb
  match v, hm, hg, hb with
  | none, hm, _, _ =>
    rintro x ⟨hx, s, hs, rfl⟩
    exact (hm s).2 ⟨hs, hx⟩
  | some (lo, none), _, _, hb => exact absurd rfl (hb lo)
  | some (lo, some hi), hm, hg, _ =>
    have hle := hg lo hi rfl
    have hm' : ∀ s, (lo ≤ s ∧ s ≤ hi) ↔ 0 ≤ s ∧ In t (rayPt p q s) := by
      intro s; rw [← hm s]; simp [Iv.Mem]
    dsimp only
    by_cases he : lo = hi
    · rw [if_pos he]
      subst he
      intro x
      constructor
      · rintro ⟨hx, s, hs, rfl⟩
        have := (hm' s).2 ⟨hs, hx⟩
        have : s = lo := le_antisymm this.2 this.1
        rw [this]; rfl
      · rintro rfl
        have := (hm' lo).1 ⟨le_refl _, le_refl _⟩
        exact ⟨this.2, lo, this.1, rfl⟩
    · rw [if_neg he]
      have hlt : 0 < hi - lo := by have := lt_of_le_of_ne hle he; linarith
      refine ⟨fun h => he (rayPt_inj hpq h), fun x => ?_⟩
      constructor
      · rintro ⟨hx, s, hs, rfl⟩
        obtain ⟨h1, h2⟩ := (hm' s).2 ⟨hs, hx⟩
        refine ⟨(hi - s) / (hi - lo), (s - lo) / (hi - lo), by field_simp; ring, div_nonneg (by linarith) hlt.le, div_nonneg (by linarith) hlt.le, ?_⟩
        apply p3_ext <;> simp only [rayPt] <;> field_simp <;> ring
      · rintro ⟨u, v, huv, hu, hv, rfl⟩
        have e : (⟨u * (rayPt p q lo).x + v * (rayPt p q hi).x, u * (rayPt p q lo).y + v * (rayPt p q hi).y, u * (rayPt p q lo).z + v * (rayPt p q hi).z⟩ : P3) = rayPt p q (u * lo + v * hi) := by
          have : u = 1 - v := by linarith
          subst this
          apply p3_ext <;> simp only [rayPt] <;> ring
        rw [e]
        have hu1 : u = 1 - v := by linarith
        have hv1 := mul_nonneg hv hlt.le
        have hv2 := mul_nonneg hu hlt.le
        have h1 : lo ≤ u * lo + v * hi := by rw [hu1]; linarith
        have h2 : u * lo + v * hi ≤ hi := by rw [show v = 1 - u by linarith]; linarith
        have := (hm' _).1 ⟨h1, h2⟩
        exact ⟨this.2, _, this.1, rfl⟩

/-- All faces are offered, and the whole list is sorted. -/
def exactEnv (n : Nat) : Env := ⟨exactHit, fun _ _ => .ok (List.range n), List.insertionSort (fun a b => a.1 ≤ b.1)⟩

instance : Std.Total (fun (a b : ℚ × Nat) => a.1 ≤ b.1) := ⟨fun a b => le_total a.1 b.1⟩
instance : IsTrans (ℚ × Nat) (fun (a b : ℚ × Nat) => a.1 ≤ b.1) := ⟨fun _ _ _ h h' => le_trans h h'⟩

/-- **What is assumed can be had.** -/
theorem exactEnv_valid {ts : List (Tri P3)} (h : ∀ t ∈ ts, Ok t) : (exactEnv ts.length).Valid ts where
  inter t ht p q hpq := exactHit_describes (h t ht) hpq
  leaves _ _ _ := by
    refine ⟨_, rfl, List.nodup_range, fun i hi => List.mem_range.1 hi, fun i t _ ht _ _ => ?_⟩
    rw [List.mem_range]
    by_contra hge
    rw [List.getElem?_eq_none (by omega)] at ht; cases ht
  perm l := List.perm_insertionSort _ l
  sorted l x y r e := by
    have hs : List.Pairwise (fun (a b : ℚ × Nat) => a.1 ≤ b.1) (List.insertionSort (fun a b => a.1 ≤ b.1) l) := List.pairwise_insertionSort _ l
    have e' : List.insertionSort (fun (a b : ℚ × Nat) => a.1 ≤ b.1) l = x :: y :: r := e
    rw [e', List.pairwise_cons, List.pairwise_cons] at hs
    exact ⟨hs.1 y List.mem_cons_self, hs.2.1⟩

end Kigumi.Side
