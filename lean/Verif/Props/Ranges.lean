import Verif.Spec.Ranges

/-!
# C107: ranges of vertices and faces, bounding boxes
-/
namespace Kigumi.Props
open Kigumi Outcome Kigumi.Ranges Kigumi.Spec.Ranges

namespace Ranges

theorem advance_eq {i : Nat} {n : Int} (h0 : 0 ≤ (i : Int) + n) (h1 : (i : Int) + n < 2 ^ 64) : ((advance i n : Nat) : Int) = i + n := by
  unfold advance add toSize
  omega

end Ranges

/-- **Iterators move like positions**: a walk that stays between the begin and the end of a range ends where it should; the intermediate conversions of negative steps to `std::size_t` do no harm. -/
theorem C107_moves {n : Nat} (hn : n < 2 ^ 63) {p : Nat} {ms : List Move} {q : Int} (hw : Walk n p ms q) : ∃ i : Nat, steps p ms = ok i ∧ (i : Int) = q := by
  induction ms generalizing p with
  | nil =>
    cases hw with
    | stay => exact ⟨p, rfl, rfl⟩
  | cons m ms ih =>
    cases hw with
    | go h0 h1 hw =>
      have hb : 0 ≤ moved p m ∧ moved p m ≤ n := by cases hw <;> exact ⟨‹_›, ‹_›⟩
      have key : ∃ j : Nat, step p m = ok j ∧ (j : Int) = moved p m := by
        cases m with
        | next => exact ⟨_, rfl, by simp only [moved, inc] at hb ⊢; omega⟩
        | prev => exact ⟨_, rfl, by simp only [moved, dec] at hb ⊢; omega⟩
        | plus k =>
          simp only [moved] at hb
          exact ⟨_, rfl, Ranges.advance_eq (by omega) (by omega)⟩
        | minus k =>
          simp only [moved] at hb ⊢
          refine ⟨advance p (-k), ?_, by rw [Ranges.advance_eq (by omega) (by omega)]; omega⟩
          unfold step diff
          dsimp only
          rw [if_pos (by omega)]
          rfl
      obtain ⟨j, e, hj⟩ := key
      rw [← hj] at hw
      obtain ⟨i, e', hi⟩ := ih hw
      exact ⟨i, by unfold steps; rw [e]; exact e', hi⟩

/-- **Differences, comparisons and subscripts** are those of positions. -/
theorem C107_compare {n i j : Nat} (hn : n < 2 ^ 63) (hi : i ≤ n) (hj : j ≤ n) :
    minus i j = ok ((i : Int) - j) ∧ less i j = ok (decide (i < j)) ∧ subscript i ((j : Int) - i) = j ∧ (minus i j = ok 0 ↔ i = j) := by
  have e : minus i j = ok ((i : Int) - j) := by
    unfold minus distanceTo toDiff diff
    rw [if_pos (by omega), if_pos (by omega), if_pos (by omega)]
  refine ⟨e, ?_, ?_, ?_⟩
  · unfold less
    rw [e]
    show ok _ = ok _
    congr 1
    exact decide_eq_decide.2 (by omega)
  · have := Ranges.advance_eq (i := i) (n := (j : Int) - i) (by omega) (by omega)
    unfold subscript
    omega
  · rw [e]
    constructor
    · intro h; injection h with h; omega
    · rintro rfl; simp

/-- **A loop over a range** visits every index once, in order, and ends. -/
theorem C107_visit {n : Nat} (hn : n < 2 ^ 64) : ∃ k, ∀ k', k ≤ k' → visit n k' 0 = some (List.range n) := by
  have key : ∀ (d i : Nat), i + d = n → ∀ k, d < k → visit n k i = some (List.range' i d) := by
    intro d
    induction d with
    | zero =>
      intro i hi k hk
      obtain ⟨k, rfl⟩ : ∃ m, k = m + 1 := ⟨k - 1, by omega⟩
      unfold visit
      rw [if_pos (by omega)]; rfl
    | succ d ih =>
      intro i hi k hk
      obtain ⟨k, rfl⟩ : ∃ m, k = m + 1 := ⟨k - 1, by omega⟩
      unfold visit
      rw [if_neg (by omega), show inc i = i + 1 by unfold inc; omega, ih (i + 1) (by omega) k (by omega)]
      rfl
  exact ⟨n + 1, fun k hk => by rw [key n 0 (by omega) k (by omega), List.range_eq_range']⟩

/-- **Visited indices can be used:** they are valid, and `point`, `face` and `data` do not throw for them; for the default index they do. -/
theorem C107_usable {α : Type} {l : List α} (hl : l.length < 2 ^ 63) : (∀ k is, visit l.length k 0 = some is → ∀ i ∈ is, isValid i = true ∧ ∃ a, at! l i = ok a ∧ l[i]? = some a) ∧
    isValid invalid = false ∧ at! l invalid = exn "out_of_range" := by
  refine ⟨fun k is hv i hi => ?_, by decide, ?_⟩
  · obtain ⟨k0, h0⟩ := C107_visit (n := l.length) (by omega)
    have mono : ∀ (k i : Nat) is, visit l.length k i = some is → ∀ k', k ≤ k' → visit l.length k' i = some is := by
      intro k
      induction k with
      | zero => intro i is h; cases h
      | succ k ih =>
        intro i is h k' hk
        obtain ⟨k', rfl⟩ : ∃ m, k' = m + 1 := ⟨k' - 1, by omega⟩
        unfold visit at h ⊢
        split at h
        · next e => rw [if_pos e]; exact h
        · next e =>
          rw [if_neg e]
          obtain ⟨js, h1, h2⟩ := Option.map_eq_some_iff.1 h
          rw [ih _ js h1 k' (by omega), ← h2]; rfl
    have := mono k 0 is hv (max k k0) (by omega)
    rw [h0 _ (by omega)] at this
    cases this
    have hlt := List.mem_range.1 hi
    refine ⟨?_, l[i], at!_ok.2 (List.getElem?_eq_getElem hlt), List.getElem?_eq_getElem hlt⟩
    unfold isValid
    simp; omega
  · unfold at!
    rw [List.getElem?_eq_none (by unfold invalid; omega)]

/-! ## Boxes -/

variable {P D : Type}

theorem bbox_bounds (approx : P → Box) (ps : List P) (b : Box) (k : Fin 3) :
    let r := ps.foldl (fun b p => b.join (approx p)) b
    (r.lo k ≤ b.lo k ∧ b.hi k ≤ r.hi k) ∧ (∀ p ∈ ps, r.lo k ≤ (approx p).lo k ∧ (approx p).hi k ≤ r.hi k) ∧
      (r.lo k = b.lo k ∨ ∃ p ∈ ps, r.lo k = (approx p).lo k) ∧ (r.hi k = b.hi k ∨ ∃ p ∈ ps, r.hi k = (approx p).hi k) := by
  induction ps generalizing b with
  | nil => exact ⟨⟨le_rfl, le_rfl⟩, by simp, .inl rfl, .inl rfl⟩
  | cons p ps ih =>
    obtain ⟨⟨h1, h2⟩, h3, h4, h5⟩ := ih (b.join (approx p))
    have j1 : (b.join (approx p)).lo k = min (b.lo k) ((approx p).lo k) := rfl
    have j2 : (b.join (approx p)).hi k = max (b.hi k) ((approx p).hi k) := rfl
    rw [j1] at h1 h4
    rw [j2] at h2 h5
    refine ⟨⟨h1.trans (min_le_left _ _), (le_max_left _ _).trans h2⟩, ?_, ?_, ?_⟩
    · intro q hq
      rcases List.mem_cons.1 hq with rfl | hq
      · exact ⟨h1.trans (min_le_right _ _), (le_max_right _ _).trans h2⟩
      · exact h3 q hq
    · rcases h4 with h4 | ⟨q, hq, h4⟩
      · rcases min_choice (b.lo k) ((approx p).lo k) with e | e
        · exact .inl (h4.trans e)
        · exact .inr ⟨p, by simp, h4.trans e⟩
      · exact .inr ⟨q, by simp [hq], h4⟩
    · rcases h5 with h5 | ⟨q, hq, h5⟩
      · rcases max_choice (b.hi k) ((approx p).hi k) with e | e
        · exact .inl (h5.trans e)
        · exact .inr ⟨p, by simp, h5.trans e⟩
      · exact .inr ⟨q, by simp [hq], h5⟩

/-- **The bounding box** of a soup or a mesh contains all vertices (used or not), and it is the smallest box that contains the boxes of their approximations. -/
theorem C107_bbox (approx : P → Box) (place : P → Fin 3 → ℚ) (s : Soup P D) (hplace : ∀ p ∈ s.points, Contains (approx p) (place p)) :
    (∀ p ∈ s.points, Contains (bbox approx s) (place p)) ∧ (∀ p ∈ s.points, Inside (approx p) (bbox approx s)) ∧ ∀ c, (∀ p ∈ s.points, Inside (approx p) c) → Inside (bbox approx s) c := by
  have hb := bbox_bounds approx s.points Box.none
  have hin : ∀ p ∈ s.points, Inside (approx p) (bbox approx s) := fun p hp k => (hb k).2.1 p hp
  refine ⟨fun p hp k => ⟨(hin p hp k).1.trans (hplace p hp k).1, (hplace p hp k).2.trans (hin p hp k).2⟩, hin, fun c hc k => ?_⟩
  obtain ⟨-, -, h1, h2⟩ := hb k
  constructor
  · rcases h1 with e | ⟨p, hp, e⟩
    · show c.lo k ≤ (bbox approx s).lo k
      rw [show (bbox approx s).lo k = ⊤ from e]; exact le_top
    · rw [show (bbox approx s).lo k = (approx p).lo k from e]; exact (hc p hp k).1
  · rcases h2 with e | ⟨p, hp, e⟩
    · rw [show (bbox approx s).hi k = ⊥ from e]; exact bot_le
    · rw [show (bbox approx s).hi k = (approx p).hi k from e]; exact (hc p hp k).2

/-- If coordinates are doubles, the box is tight: on each of its six sides there is a vertex. -/
theorem C107_tight (approx : P → Box) (place : P → Fin 3 → ℚ) (s : Soup P D) (hexact : ∀ p ∈ s.points, ∀ k, (approx p).lo k = ((place p k : WithTop ℚ) : Bound) ∧ (approx p).hi k = ((place p k : WithTop ℚ) : Bound)) (hne : s.points ≠ []) (k : Fin 3) :
    (∃ p ∈ s.points, (bbox approx s).lo k = ((place p k : WithTop ℚ) : Bound)) ∧ ∃ p ∈ s.points, (bbox approx s).hi k = ((place p k : WithTop ℚ) : Bound) := by
  obtain ⟨p0, hp0⟩ := List.exists_mem_of_ne_nil _ hne
  obtain ⟨-, h0, h1, h2⟩ := bbox_bounds approx s.points Box.none k
  constructor
  · rcases h1 with e | ⟨p, hp, e⟩
    · have := (h0 p0 hp0).1
      rw [e, (hexact p0 hp0 k).1] at this
      exact absurd (top_le_iff.1 this) (by intro h; exact absurd (WithBot.coe_injective h) (WithTop.coe_ne_top))
    · exact ⟨p, hp, (show (bbox approx s).lo k = _ from e).trans (hexact p hp k).1⟩
  · rcases h2 with e | ⟨p, hp, e⟩
    · have := (h0 p0 hp0).2
      rw [e, (hexact p0 hp0 k).2] at this
      exact absurd (le_bot_iff.1 this) (WithBot.coe_ne_bot)
    · exact ⟨p, hp, (show (bbox approx s).hi k = _ from e).trans (hexact p hp k).2⟩

/-- **Indices as values**: increments and decrements undo each other for all values of the type, also for the default value, whose successor is the first index; addition of a number is the increment that many times. -/
theorem C107_wrap {i : Nat} (hi : i < 2 ^ 64) : inc i < 2 ^ 64 ∧ dec i < 2 ^ 64 ∧ dec (inc i) = i ∧ inc (dec i) = i ∧ inc invalid = 0 ∧ dec 0 = invalid ∧ ∀ n, add i n = inc^[n] i := by
  refine ⟨by unfold inc; omega, by unfold dec; omega, by unfold inc dec; omega, by unfold inc dec; omega, by decide, by decide, fun n => ?_⟩
  induction n with
  | zero => unfold add; simp only [Function.iterate_zero, id]; omega
  | succ n ih =>
    rw [Function.iterate_succ_apply', ← ih]
    unfold add inc
    omega

/-! ## Examples -/

example : inc (add invalid 4) = 4 ∧ dec (dec (dec 2)) = invalid := by decide +kernel


/-- Backwards and forwards in a range of five. -/
example : steps 0 [.plus 5, .prev, .plus (-3), .minus (-1), .next] = ok 3 := by decide +kernel
example : ∃ i : Nat, steps 0 [.plus 5, .prev, .plus (-3), .minus (-1), .next] = ok i ∧ (i : Int) = 3 :=
  C107_moves (n := 5) (by decide) (.go (by decide) (by decide) (.go (by decide) (by decide) (.go (by decide) (by decide) (.go (by decide) (by decide) (.go (by decide) (by decide) (.stay (by decide) (by decide)))))))
/-- For positions that are in no range, this fails: the default index is before all others for iterators, and a difference may overflow. -/
example : less invalid 4 = ok true ∧ minus invalid 4 = ok (-5) := by decide +kernel
example : minus (2 ^ 63 - 1) (2 ^ 63) = ub "signed overflow" := by decide +kernel
example : visit 4 5 0 = some [0, 1, 2, 3] ∧ visit 4 4 0 = none := by decide +kernel
/-- Without points the box is empty: it contains no point. -/
example (approx : P → Box) (p : Fin 3 → ℚ) : ¬ Contains (bbox approx (⟨[], [], []⟩ : Soup P D)) p := fun h => absurd (top_le_iff.1 (h 0).1) (by intro h; exact absurd (WithBot.coe_injective h) (WithTop.coe_ne_top))
/-- The box of two points. -/
example : (bbox (fun p : ℚ => ⟨fun _ => ((p : WithTop ℚ) : Bound), fun _ => ((p : WithTop ℚ) : Bound)⟩) (⟨[3, 1], [], []⟩ : Soup ℚ Unit)).lo 0 = (((1 : ℚ) : WithTop ℚ) : Bound) := by
  show min (min ⊤ (((3 : ℚ) : WithTop ℚ) : Bound)) (((1 : ℚ) : WithTop ℚ) : Bound) = _
  rw [min_eq_right le_top]
  exact min_eq_right (by exact_mod_cast (by decide +kernel : (1 : ℚ) ≤ 3))

end Kigumi.Props
