import Verif.Proofs.FaceFaceRun

/-! # The pairs found are the pairs that meet in one point -/
namespace Kigumi.FaceFace
open Kigumi Outcome Geo Region Spec.Triangles

/-- Relative interior of the simplex with a pattern. -/
def PatOpen (m : Pat) (a b c x : P3) : Prop := Open m.1 m.2.1 m.2.2 a b c x

theorem seg_open (i : Three) (k : Bool) (a b c x : P3) :
    PatOpen (edgePat i k) a b c x ↔ match i with | .e0 => Seg true k a b x | .e1 => Seg true k b c x | .e2 => Seg true k c a x := by
  cases i
  · constructor
    · rintro ⟨u, v, w, h, rfl, hu, hv, hw⟩
      have hw : w = 0 := by simpa [Weight, edgePat] using hw
      subst hw
      exact ⟨u, v, by linarith, by apply p3_ext <;> simp only [seg, combo] <;> ring, hu, hv⟩
    · rintro ⟨s, t, h, rfl, hs, ht⟩
      exact ⟨s, t, 0, by linarith, by apply p3_ext <;> simp only [seg, combo] <;> ring, hs, ht, by simp [Weight, edgePat]⟩
  · constructor
    · rintro ⟨u, v, w, h, rfl, hu, hv, hw⟩
      have hu : u = 0 := by simpa [Weight, edgePat] using hu
      subst hu
      exact ⟨v, w, by linarith, by apply p3_ext <;> simp only [seg, combo] <;> ring, hv, hw⟩
    · rintro ⟨s, t, h, rfl, hs, ht⟩
      exact ⟨0, s, t, by linarith, by apply p3_ext <;> simp only [seg, combo] <;> ring, by simp [Weight, edgePat], hs, ht⟩
  · constructor
    · rintro ⟨u, v, w, h, rfl, hu, hv, hw⟩
      have hv : v = 0 := by simpa [Weight, edgePat] using hv
      subst hv
      exact ⟨w, u, by linarith, by apply p3_ext <;> simp only [seg, combo] <;> ring, hw, hu⟩
    · rintro ⟨s, t, h, rfl, hs, ht⟩
      exact ⟨t, 0, s, by linarith, by apply p3_ext <;> simp only [seg, combo] <;> ring, ht, by simp [Weight, edgePat], hs⟩

theorem once_comm {A B : P3 → Prop} : MeetOnce A B ↔ MeetOnce B A := by
  constructor <;> rintro ⟨x, ⟨h1, h2⟩, h⟩ <;> exact ⟨x, ⟨h2, h1⟩, fun y a b => h y b a⟩

theorem once_congr {A A' B : P3 → Prop} (h : ∀ x, A x ↔ A' x) : MeetOnce A B ↔ MeetOnce A' B := by
  have : A = A' := funext fun x => propext (h x)
  rw [this]

theorem corners_ne {a b c : P3} (hn : dot (normal a b c) (normal a b c) ≠ 0) : a ≠ b ∧ b ≠ c ∧ c ≠ a := by
  refine ⟨?_, ?_, ?_⟩ <;> rintro rfl <;> apply hn <;> simp only [normal, cross, sub, dot] <;> ring

/-- The call for the edge number `i` of the triangle `a b c` with the face `p q r`. -/
def call (left : Bool) (i : Three) (a b c p q r : P3) : List (Bool × Pat) :=
  match i with
  | .e0 => gEF left a b p q r
  | .e1 => gEF left b c p q r
  | .e2 => gEF left c a p q r

theorem call_spec (left : Bool) (i : Three) {a b c p q r : P3} (h1 : dot (normal a b c) (normal a b c) ≠ 0) (h2 : dot (normal p q r) (normal p q r) ≠ 0) (k : Bool) (m : Pat) :
    (k, m) ∈ call left i a b c p q r ↔ allowed left k m = true ∧ MeetOnce (PatOpen (edgePat i k) a b c) (PatOpen m p q r) := by
  obtain ⟨n1, n2, n3⟩ := corners_ne h1
  rw [once_congr (seg_open i k a b c)]
  cases i
  · exact gEF_spec h2 left n1 k m
  · exact gEF_spec h2 left n2 k m
  · exact gEF_spec h2 left n3 k m

theorem call_nodup (left : Bool) (i : Three) (a b c p q r : P3) : (call left i a b c p q r).Nodup := by
  cases i <;> exact gEF_nodup _ _ _ _ _ _

theorem mem_allHits {a b c p q r : P3} {h : Hit} : h ∈ allHits a b c p q r ↔
    (∃ i x, x ∈ call true i a b c p q r ∧ h = enc true i x) ∨ ∃ i x, x ∈ call false i p q r a b c ∧ h = enc false i x := by
  unfold allHits
  simp only [List.mem_append, List.mem_map]
  constructor
  · rintro (((((⟨x, hx, rfl⟩ | ⟨x, hx, rfl⟩) | ⟨x, hx, rfl⟩) | ⟨x, hx, rfl⟩) | ⟨x, hx, rfl⟩) | ⟨x, hx, rfl⟩)
    · exact Or.inl ⟨.e0, x, hx, rfl⟩
    · exact Or.inl ⟨.e1, x, hx, rfl⟩
    · exact Or.inl ⟨.e2, x, hx, rfl⟩
    · exact Or.inr ⟨.e0, x, hx, rfl⟩
    · exact Or.inr ⟨.e1, x, hx, rfl⟩
    · exact Or.inr ⟨.e2, x, hx, rfl⟩
  · rintro (⟨i, x, hx, rfl⟩ | ⟨i, x, hx, rfl⟩) <;> cases i
    · exact Or.inl (Or.inl (Or.inl (Or.inl (Or.inl ⟨x, hx, rfl⟩))))
    · exact Or.inl (Or.inl (Or.inl (Or.inl (Or.inr ⟨x, hx, rfl⟩))))
    · exact Or.inl (Or.inl (Or.inl (Or.inr ⟨x, hx, rfl⟩)))
    · exact Or.inl (Or.inl (Or.inr ⟨x, hx, rfl⟩))
    · exact Or.inl (Or.inr ⟨x, hx, rfl⟩)
    · exact Or.inr ⟨x, hx, rfl⟩

theorem patCode_inj (left : Bool) {m m' : Pat} (h : patCode left m = patCode left m') : m = m' := by
  obtain ⟨x, y, z⟩ := m
  obtain ⟨x', y', z'⟩ := m'
  cases left <;> cases x <;> cases y <;> cases z <;> cases x' <;> cases y' <;> cases z' <;> first | rfl | exact absurd h (by decide)

/-- The codes of a pair of simplices. -/
def pairCode (L R : Pat) : Hit := (patCode true L, patCode false R)

theorem pairCode_inj {L R L' R' : Pat} (h : pairCode L R = pairCode L' R') : L = L' ∧ R = R' :=
  ⟨patCode_inj true (congrArg Prod.fst h), patCode_inj false (congrArg Prod.snd h)⟩

theorem enc_true (i : Three) (x : Bool × Pat) : enc true i x = pairCode (edgePat i x.1) x.2 := rfl
theorem enc_false (i : Three) (x : Bool × Pat) : enc false i x = pairCode x.2 (edgePat i x.1) := rfl

/-- Which pairs some call is responsible for. -/
theorem covered (L R : Pat) : ((∃ i k, L = edgePat i k ∧ allowed true k R = true) ∨ ∃ i k, R = edgePat i k ∧ allowed false k L = true) ↔
    L ≠ (false, false, false) ∧ R ≠ (false, false, false) ∧ ¬ (L = (true, true, true) ∧ R = (true, true, true)) := by
  constructor
  · obtain ⟨L0, L1, L2⟩ := L
    obtain ⟨R0, R1, R2⟩ := R
    rintro (⟨i, k, h1, h2⟩ | ⟨i, k, h1, h2⟩)
    · rw [h1]
      refine ⟨by cases i <;> cases k <;> decide, ?_, by cases i <;> cases k <;> rintro ⟨h, _⟩ <;> exact absurd h (by decide)⟩
      intro h; rw [h] at h2
      cases k <;> exact absurd h2 (by decide)
    · rw [h1]
      refine ⟨?_, by cases i <;> cases k <;> decide, by cases i <;> cases k <;> rintro ⟨_, h⟩ <;> exact absurd h (by decide)⟩
      intro h; rw [h] at h2
      cases k <;> exact absurd h2 (by decide)
  · obtain ⟨L0, L1, L2⟩ := L
    obtain ⟨R0, R1, R2⟩ := R
    rintro ⟨h1, h2, h3⟩
    cases L0 <;> cases L1 <;> cases L2 <;> cases R0 <;> cases R1 <;> cases R2 <;>
      first
      | exact absurd rfl h1
      | exact absurd rfl h2
      | exact absurd ⟨rfl, rfl⟩ h3
      | exact Or.inl ⟨.e0, false, rfl, rfl⟩ | exact Or.inl ⟨.e1, false, rfl, rfl⟩ | exact Or.inl ⟨.e2, false, rfl, rfl⟩
      | exact Or.inl ⟨.e0, true, rfl, rfl⟩ | exact Or.inl ⟨.e1, true, rfl, rfl⟩ | exact Or.inl ⟨.e2, true, rfl, rfl⟩
      | exact Or.inr ⟨.e0, false, rfl, rfl⟩ | exact Or.inr ⟨.e1, false, rfl, rfl⟩ | exact Or.inr ⟨.e2, false, rfl, rfl⟩
      | exact Or.inr ⟨.e0, true, rfl, rfl⟩ | exact Or.inr ⟨.e1, true, rfl, rfl⟩ | exact Or.inr ⟨.e2, true, rfl, rfl⟩

theorem open_empty (a b c x : P3) : ¬ PatOpen (false, false, false) a b c x := by
  rintro ⟨u, v, w, h, _, hu, hv, hw⟩
  have hu : u = 0 := by simpa [Weight] using hu
  have hv : v = 0 := by simpa [Weight] using hv
  have hw : w = 0 := by simpa [Weight] using hw
  rw [hu, hv, hw] at h; norm_num at h

/-- A translated point. -/
def move (x d : P3) (t : ℚ) : P3 := ⟨x.x + t * d.x, x.y + t * d.y, x.z + t * d.z⟩

theorem det_move (x d p q r : P3) (t : ℚ) : det4 (move x d t) p q r = det4 x p q r - t * dot (normal p q r) d := by
  simp only [det4, move, normal, dot, cross, sub]; ring

/-- From a point of the open simplex one can move a little in every direction of its plane (for the whole triangle). -/
theorem move_open {a b c x d : P3} (hn : dot (normal a b c) (normal a b c) ≠ 0) (hx : PatOpen (true, true, true) a b c x) (hd : dot (normal a b c) d = 0) :
    ∃ e > 0, ∀ t : ℚ, 0 < t → t ≤ e → PatOpen (true, true, true) a b c (move x d t) := by
  obtain ⟨u, v, w, h, rfl, hu, hv, hw⟩ := hx
  have h0 : det4 (move (combo u v w a b c) d 1) a b c = 0 := by
    rw [det_move, det_combo_first u v w h, hd]; ring
  obtain ⟨u', v', w', h', e⟩ := plane_weights hn h0
  obtain ⟨e1, p1, f1⟩ := small_step_weight hu (e := u' - u) (by simp)
  obtain ⟨e2, p2, f2⟩ := small_step_weight hv (e := v' - v) (by simp)
  obtain ⟨e3, p3, f3⟩ := small_step_weight hw (e := w' - w) (by simp)
  refine ⟨min e1 (min e2 e3), by simp only [gt_iff_lt, lt_min_iff]; exact ⟨p1, p2, p3⟩, ?_⟩
  intro t ht hle
  refine ⟨u + t * (u' - u), v + t * (v' - v), w + t * (w' - w), by linear_combination h + t * h' - t * h, ?_, f1 t ht (hle.trans (min_le_left _ _)),
    f2 t ht (hle.trans ((min_le_right _ _).trans (min_le_left _ _))), f3 t ht (hle.trans ((min_le_right _ _).trans (min_le_right _ _)))⟩
  have ex := congrArg Spec.P3.x e; have ey := congrArg Spec.P3.y e; have ez := congrArg Spec.P3.z e
  simp only [move, combo] at ex ey ez
  apply p3_ext <;> simp only [move, combo]
  · linear_combination t * ex
  · linear_combination t * ey
  · linear_combination t * ez

/-- The interiors of two triangles never meet in a single point. -/
theorem faces_not_once {a b c p q r : P3} (h1 : dot (normal a b c) (normal a b c) ≠ 0) (h2 : dot (normal p q r) (normal p q r) ≠ 0) :
    ¬ MeetOnce (PatOpen (true, true, true) a b c) (PatOpen (true, true, true) p q r) := by
  rintro ⟨x, ⟨hx1, hx2⟩, hu⟩
  have : ∃ d : P3, dot d d ≠ 0 ∧ dot (normal a b c) d = 0 ∧ dot (normal p q r) d = 0 := by
    by_cases h : dot (cross (normal a b c) (normal p q r)) (cross (normal a b c) (normal p q r)) = 0
    · refine ⟨sub b a, ?_, ?_, ?_⟩
      · intro h0
        obtain ⟨ex, ey, ez⟩ := dot_self_zero h0
        apply (corners_ne h1).1
        simp only [sub] at ex ey ez
        exact p3_ext (by linarith) (by linarith) (by linarith)
      · simp only [normal, dot, cross, sub]; ring
      · obtain ⟨ex, ey, ez⟩ := dot_self_zero h
        have hd : dot (normal a b c) (sub b a) = 0 := by simp only [normal, dot, cross, sub]; ring
        generalize normal a b c = n at *
        generalize normal p q r = n' at *
        generalize sub b a = d at *
        have : dot n n * dot n' d = 0 := by
          simp only [dot, cross] at ex ey ez hd ⊢
          linear_combination (n.x * n'.x + n.y * n'.y + n.z * n'.z) * hd + (n.y * d.z - n.z * d.y) * ex + (n.z * d.x - n.x * d.z) * ey + (n.x * d.y - n.y * d.x) * ez
        exact (mul_eq_zero.1 this).resolve_left h1
    · exact ⟨_, h, by simp only [dot, cross]; ring, by simp only [dot, cross]; ring⟩
  obtain ⟨d, hd, d1, d2⟩ := this
  obtain ⟨e1, p1, f1⟩ := move_open h1 hx1 d1
  obtain ⟨e2, p2, f2⟩ := move_open h2 hx2 d2
  have pm : 0 < min e1 e2 := lt_min p1 p2
  have := hu _ (f1 _ pm (min_le_left _ _)) (f2 _ pm (min_le_right _ _))
  apply hd
  have ex := congrArg Spec.P3.x this; have ey := congrArg Spec.P3.y this; have ez := congrArg Spec.P3.z this
  simp only [move] at ex ey ez
  have kx : d.x = 0 := (mul_eq_zero.1 (by linarith : min e1 e2 * d.x = 0)).resolve_left pm.ne'
  have ky : d.y = 0 := (mul_eq_zero.1 (by linarith : min e1 e2 * d.y = 0)).resolve_left pm.ne'
  have kz : d.z = 0 := (mul_eq_zero.1 (by linarith : min e1 e2 * d.z = 0)).resolve_left pm.ne'
  rw [dot, kx, ky, kz]; ring

variable {a b c p q r : P3}

/-- **The pairs found**: exactly the pairs of simplices that meet in one point. -/
theorem allHits_spec (h1 : dot (normal a b c) (normal a b c) ≠ 0) (h2 : dot (normal p q r) (normal p q r) ≠ 0) (L R : Pat) :
    pairCode L R ∈ allHits a b c p q r ↔ MeetOnce (PatOpen L a b c) (PatOpen R p q r) := by
  rw [mem_allHits]
  constructor
  · rintro (⟨i, ⟨k, m⟩, hx, e⟩ | ⟨i, ⟨k, m⟩, hx, e⟩)
    · rw [enc_true] at e
      obtain ⟨rfl, rfl⟩ := pairCode_inj e
      exact ((call_spec true i h1 h2 k R).1 hx).2
    · rw [enc_false] at e
      obtain ⟨rfl, rfl⟩ := pairCode_inj e
      exact once_comm.1 ((call_spec false i h2 h1 k L).1 hx).2
  · intro hm
    have hne : L ≠ (false, false, false) ∧ R ≠ (false, false, false) ∧ ¬ (L = (true, true, true) ∧ R = (true, true, true)) := by
      refine ⟨?_, ?_, ?_⟩
      · rintro rfl; obtain ⟨x, ⟨h, _⟩, _⟩ := hm; exact open_empty _ _ _ _ h
      · rintro rfl; obtain ⟨x, ⟨_, h⟩, _⟩ := hm; exact open_empty _ _ _ _ h
      · rintro ⟨rfl, rfl⟩; exact faces_not_once h1 h2 hm
    rcases (covered L R).2 hne with ⟨i, k, rfl, hal⟩ | ⟨i, k, rfl, hal⟩
    · exact Or.inl ⟨i, (k, R), (call_spec true i h1 h2 k R).2 ⟨hal, hm⟩, rfl⟩
    · exact Or.inr ⟨i, (k, L), (call_spec false i h2 h1 k L).2 ⟨hal, once_comm.1 hm⟩, rfl⟩

/-- Every entry is the code of a pair. -/
theorem allHits_pair {h : Hit} (hh : h ∈ allHits a b c p q r) : ∃ L R, h = pairCode L R := by
  rcases mem_allHits.1 hh with ⟨i, x, _, rfl⟩ | ⟨i, x, _, rfl⟩
  · exact ⟨_, _, enc_true _ _⟩
  · exact ⟨_, _, enc_false _ _⟩

theorem edgePat_inj {i j : Three} {k l : Bool} (h : edgePat i k = edgePat j l) : i = j ∧ k = l := by
  cases i <;> cases j <;> cases k <;> cases l <;> first | exact ⟨rfl, rfl⟩ | exact absurd h (by decide)

theorem enc_inj (left : Bool) {i j : Three} {x y : Bool × Pat} (h : enc left i x = enc left j y) : i = j ∧ x = y := by
  obtain ⟨k, m⟩ := x
  obtain ⟨l, m'⟩ := y
  cases left
  · rw [enc_false, enc_false] at h
    obtain ⟨e1, e2⟩ := pairCode_inj h
    obtain ⟨rfl, e3⟩ := edgePat_inj e2
    dsimp only at e1 e3
    subst e1; subst e3; exact ⟨rfl, rfl⟩
  · rw [enc_true, enc_true] at h
    obtain ⟨e1, e2⟩ := pairCode_inj h
    obtain ⟨rfl, e3⟩ := edgePat_inj e1
    dsimp only at e2 e3
    subst e2; subst e3; exact ⟨rfl, rfl⟩

theorem allowed_disjoint {i j : Three} {k l : Bool} {m m' : Pat} (h1 : allowed true k m = true) (h2 : allowed false l m' = true)
    (e1 : edgePat i k = m') (e2 : m = edgePat j l) : False := by
  subst e1; subst e2
  cases i <;> cases j <;> cases k <;> cases l <;> first | exact absurd h1 (by decide) | exact absurd h2 (by decide)

/-- **No pair is found twice.** -/
theorem allHits_nodup (h1 : dot (normal a b c) (normal a b c) ≠ 0) (h2 : dot (normal p q r) (normal p q r) ≠ 0) : (allHits a b c p q r).Nodup := by
  have n := fun left i x y z x' y' z' => (call_nodup left i x y z x' y' z').map (f := enc left i) (fun _ _ h => (enc_inj left h).2)
  have dis : ∀ (left : Bool) (i j : Three), i ≠ j → ∀ (l l' : List (Bool × Pat)), (l.map (enc left i)).Disjoint (l'.map (enc left j)) := by
    intro left i j hij l l' x hx hy
    obtain ⟨u, _, rfl⟩ := List.mem_map.1 hx
    obtain ⟨v, _, e⟩ := List.mem_map.1 hy
    exact hij (enc_inj left e).1.symm
  have dis2 : ∀ (i j : Three), ((call true i a b c p q r).map (enc true i)).Disjoint ((call false j p q r a b c).map (enc false j)) := by
    intro i j x hx hy
    obtain ⟨⟨k, m⟩, hu, rfl⟩ := List.mem_map.1 hx
    obtain ⟨⟨l, m'⟩, hv, e⟩ := List.mem_map.1 hy
    rw [enc_true, enc_false] at e
    obtain ⟨e1, e2⟩ := pairCode_inj e
    exact allowed_disjoint ((call_spec true i h1 h2 k m).1 hu).1 ((call_spec false j h2 h1 l m').1 hv).1 e1.symm e2.symm
  have c0 := n true .e0 a b c p q r; have c1 := n true .e1 a b c p q r; have c2 := n true .e2 a b c p q r
  have d0 := n false .e0 p q r a b c; have d1 := n false .e1 p q r a b c; have d2 := n false .e2 p q r a b c
  unfold allHits
  refine List.Nodup.append (List.Nodup.append (List.Nodup.append (List.Nodup.append (List.Nodup.append c0 c1 ?_) c2 ?_) d0 ?_) d1 ?_) d2 ?_
  · exact dis _ _ _ (by decide) _ _
  · rw [List.disjoint_append_left]; exact ⟨dis _ _ _ (by decide) _ _, dis _ _ _ (by decide) _ _⟩
  · rw [List.disjoint_append_left, List.disjoint_append_left]; exact ⟨⟨dis2 .e0 .e0, dis2 .e1 .e0⟩, dis2 .e2 .e0⟩
  · rw [List.disjoint_append_left, List.disjoint_append_left, List.disjoint_append_left]
    exact ⟨⟨⟨dis2 .e0 .e1, dis2 .e1 .e1⟩, dis2 .e2 .e1⟩, dis _ _ _ (by decide) _ _⟩
  · rw [List.disjoint_append_left, List.disjoint_append_left, List.disjoint_append_left, List.disjoint_append_left]
    exact ⟨⟨⟨⟨dis2 .e0 .e2, dis2 .e1 .e2⟩, dis2 .e2 .e2⟩, dis _ _ _ (by decide) _ _⟩, dis _ _ _ (by decide) _ _⟩

end Kigumi.FaceFace
