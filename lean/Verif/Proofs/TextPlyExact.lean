import Verif.Spec.PlyRead
import Verif.Proofs.TextOffRead

/-!
# Reading lines of the body of PLY files
-/
namespace Kigumi.Text
open Kigumi IS Ply Mesh

variable {F D : Type}

/-- A stream from which nothing was read in vain. -/
def Fresh (s : IS) : Prop := s.fail = false ∧ (s.eof = true → s.rest = [])

theorem fresh_of (l : List Char) : Fresh (of l) := ⟨rfl, fun h => by cases h⟩
theorem fresh_rest (r : List Char) : Fresh ⟨r, r.isEmpty, false⟩ := ⟨rfl, by simp⟩

/-- Reading from `s` gave `a` and left `s1`, as the relation says, which has only this answer; or reading failed, and the relation has no answer. -/
def Det {A : Type} (s : IS) (R : List Char → A → List Char → Prop) (s1 : IS) (a : A) : Prop :=
  (s1.fail = true ∧ ∀ b r, ¬ R s.rest b r) ∨ (Fresh s1 ∧ ∀ b r, R s.rest b r ↔ b = a ∧ r = s1.rest)

theorem Det.bind {A B : Type} {s s1 s2 : IS} {R : List Char → A → List Char → Prop} {S : A → List Char → B → List Char → Prop} {a : A} {b : B} (h : Det s R s1 a) (hf : s1.fail = true → s2.fail = true) (h' : Fresh s1 → Det s1 (S a) s2 b) :
    Det s (fun l c r => ∃ x m, R l x m ∧ S x m c r) s2 b := by
  rcases h with ⟨h1, h2⟩ | ⟨h1, h2⟩
  · exact .inl ⟨hf h1, fun c r ⟨x, m, k, _⟩ => h2 x m k⟩
  · rcases h' h1 with ⟨h3, h4⟩ | ⟨h3, h4⟩
    · refine .inl ⟨h3, fun c r ⟨x, m, k, k'⟩ => ?_⟩
      obtain ⟨rfl, rfl⟩ := (h2 x m).1 k
      exact h4 c r k'
    · refine .inr ⟨h3, fun c r => ⟨fun ⟨x, m, k, k'⟩ => ?_, fun k => ⟨a, s1.rest, (h2 _ _).2 ⟨rfl, rfl⟩, (h4 c r).2 k⟩⟩⟩
      obtain ⟨rfl, rfl⟩ := (h2 x m).1 k
      exact (h4 c r).1 k'

theorem Det.congr {A : Type} {s s1 : IS} {R S : List Char → A → List Char → Prop} {a : A} (h : Det s R s1 a) (e : ∀ l b r, R l b r ↔ S l b r) : Det s S s1 a := by
  rcases h with ⟨h1, h2⟩ | ⟨h1, h2⟩
  · exact .inl ⟨h1, fun b r k => h2 b r ((e _ _ _).2 k)⟩
  · exact .inr ⟨h1, fun b r => (e _ _ _).symm.trans (h2 b r)⟩

theorem det_word {s : IS} (h : Fresh s) : Det s NextWord s.readStr.1 s.readStr.2 := by
  obtain ⟨l, e, f⟩ := s
  obtain ⟨h1, h2⟩ := h
  dsimp only at h1 h2
  subst h1
  rcases split_word l with hs | ⟨a, t, r, ha, ht, hr, rfl⟩
  · left
    have hw : words l = [] := by
      have := words_spaces hs []
      rwa [List.append_nil] at this
    refine ⟨At.readStr_nil ⟨rfl, hw, h2⟩, ?_⟩
    rintro b r k
    dsimp only at k
    cases k with
    | @intro sp w rest k1 k2 k3 k4 =>
      rw [words_spaces k1, words_tok ⟨k2, k3⟩ k4] at hw
      cases hw
  · right
    obtain rfl : e = false := by
      cases e with
      | false => rfl
      | true => exact absurd (h2 rfl) (by simp [ht.1])
    rw [readStr_tok ha ht hr]
    refine ⟨fresh_rest r, fun b r' => ⟨fun k => ?_, ?_⟩⟩
    · dsimp only at k ⊢
      generalize hl : a ++ (t ++ r) = l at k
      cases k with
      | @intro sp w rest k1 k2 k3 k4 =>
        have e1 := readStr_tok ha ht hr
        rw [hl, readStr_tok k1 ⟨k2, k3⟩ k4] at e1
        simp only [Prod.mk.injEq, IS.mk.injEq] at e1
        exact ⟨e1.2, e1.1.1⟩
    · rintro ⟨rfl, rfl⟩
      exact .intro ha ht.1 ht.2 hr

theorem det_number {s : IS} (h : Fresh s) : Det s NextNumber (s.readSize 0).1 (s.readSize 0).2 := by
  obtain ⟨l, e, f⟩ := s
  obtain ⟨h1, h2⟩ := h
  dsimp only at h1 h2
  subst h1
  by_cases hf : (readSize ⟨l, e, false⟩ 0).1.fail = true
  · refine .inl ⟨hf, ?_⟩
    rintro b r k
    dsimp only at k
    cases k with
    | @intro sp w rest n k1 k2 k3 =>
      cases e with
      | true =>
        have := h2 rfl
        simp at this
        exact (wrapped_head k2).1 this.2.1
      | false =>
        rw [readSize_number k1 k2 k3] at hf
        cases hf
  · right
    cases e with
    | true => exact absurd (readSize_over rfl 0) hf
    | false =>
      obtain ⟨sp, w, rest, e1, h3, h4, h5, h6⟩ := number_readSize (by simpa using hf)
      rw [h6]
      refine ⟨fresh_rest rest, fun b r => ⟨fun k => ?_, ?_⟩⟩
      · dsimp only at k ⊢
        cases k with
        | @intro sp' w' rest' n k1 k2 k3 =>
          rw [readSize_number k1 k2 k3] at h6 ⊢
          simp only [IS.mk.injEq] at h6
          exact ⟨rfl, h6.1⟩
      · rintro ⟨rfl, rfl⟩
        dsimp only at h4 ⊢
        generalize (readSize ⟨l, false, false⟩ 0).2 = v at h4 ⊢
        rw [e1]
        exact .intro h3 h4 h5

theorem skipTokens_failed (n : Nat) {s : IS} (h : s.fail = true) : (skipTokens n s).fail = true := by
  induction n generalizing s with
  | zero => exact h
  | succ n ih => exact ih (readStr_failed h)

theorem det_words (n : Nat) {s : IS} (h : Fresh s) : Det s (fun l (_ : Unit) r => NextWords n l r) (skipTokens n s) () := by
  induction n generalizing s with
  | zero =>
    refine .inr ⟨h, fun b r => ⟨fun k => ?_, ?_⟩⟩
    · generalize hl : s.rest = l at k
      cases k
      exact ⟨rfl, hl.symm⟩
    · rintro ⟨-, rfl⟩
      exact .nil _
  | succ n ih =>
    have := (det_word h).bind (S := fun _ l (_ : Unit) r => NextWords n l r) (s2 := skipTokens (n + 1) s) (b := ()) (fun k => skipTokens_failed n k) (fun k => ih k)
    refine this.congr fun l b r => ⟨fun ⟨x, m, k1, k2⟩ => .cons k1 k2, fun k => ?_⟩
    cases k with
    | cons k1 k2 => exact ⟨_, _, k1, k2⟩

theorem det_numbers (n : Nat) {s : IS} (h : Fresh s) : Det s (fun l f r => f.length = n ∧ NextNumbers l f r) (readIndices n s).1 (readIndices n s).2 := by
  induction n generalizing s with
  | zero =>
    refine .inr ⟨h, fun b r => ⟨fun ⟨k, k'⟩ => ?_, ?_⟩⟩
    · obtain rfl := List.length_eq_zero_iff.1 k
      generalize hl : s.rest = l at k'
      cases k'
      exact ⟨rfl, hl.symm⟩
    · rintro ⟨rfl, rfl⟩
      exact ⟨rfl, .nil _⟩
  | succ n ih =>
    have := (det_number h).bind (S := fun v l f r => ∃ g, f = v :: g ∧ g.length = n ∧ NextNumbers l g r) (s2 := (readIndices (n + 1) s).1) (b := (readIndices (n + 1) s).2) (fun k => readIndices_failed n k) (fun k => by
      rcases ih k with ⟨h1, h2⟩ | ⟨h1, h2⟩
      · exact .inl ⟨h1, fun b r ⟨g, _, k⟩ => h2 g r k⟩
      · refine .inr ⟨h1, fun b r => ⟨fun ⟨g, e, k⟩ => ?_, fun ⟨e1, e2⟩ => ⟨_, e1, (h2 _ r).2 ⟨rfl, e2⟩⟩⟩⟩
        obtain ⟨rfl, rfl⟩ := (h2 g r).1 k
        exact ⟨e, rfl⟩)
    refine this.congr fun l b r => ⟨?_, ?_⟩
    · rintro ⟨x, m, k1, g, rfl, k2, k3⟩
      exact ⟨by simp [k2], .cons k1 k3⟩
    · rintro ⟨k1, k2⟩
      cases k2 with
      | nil => cases k1
      | cons k3 k4 => exact ⟨_, _, k3, _, rfl, by simpa using k1, k4⟩

theorem isReal_iff (N : Doubles F) (w : List Char) (x : F) : IsReal N w x ↔ N.parse (dropPlus w) = some x := by
  unfold dropPlus
  split
  · next r =>
    refine ⟨?_, fun h => .inl ⟨r, rfl, h⟩⟩
    rintro (⟨r', e, h⟩ | ⟨h, -⟩)
    · cases e; exact h
    · exact absurd rfl (h r)
  · next h =>
    refine ⟨?_, fun h' => .inr ⟨fun r e => h r e, h'⟩⟩
    rintro (⟨r', e, -⟩ | ⟨-, h'⟩)
    · exact absurd e (h r')
    · exact h'

theorem det_real (N : Doubles F) {s : IS} (h : Fresh s) (old : F) : Det s (fun l x r => Item.Next N (.real x) l r) (readDouble N s old).1 (readDouble N s old).2 := by
  have e : ∀ l x r, (∃ w, NextWord l w r ∧ IsReal N w x) ↔ Item.Next N (.real x) l r := fun l x r => ⟨fun ⟨w, k1, k2⟩ => .real k1 k2, fun k => by
    cases k with
    | real k1 k2 => exact ⟨_, k1, k2⟩⟩
  refine Det.congr ?_ e
  unfold Text.readDouble
  dsimp only
  rcases det_word h with ⟨h1, h2⟩ | ⟨h1, h2⟩
  · rw [if_pos h1]
    exact .inl ⟨h1, fun b r ⟨w, k, _⟩ => h2 w r k⟩
  · rw [if_neg (by simp [h1.1])]
    cases hp : N.parse (dropPlus s.readStr.2) with
    | none =>
      refine .inl ⟨rfl, ?_⟩
      rintro b r ⟨w, k1, k2⟩
      obtain ⟨rfl, rfl⟩ := (h2 w r).1 k1
      rw [isReal_iff, hp] at k2
      cases k2
    | some x =>
      refine .inr ⟨h1, fun b r => ⟨?_, ?_⟩⟩
      · rintro ⟨w, k1, k2⟩
        obtain ⟨rfl, rfl⟩ := (h2 w r).1 k1
        rw [isReal_iff, hp] at k2
        exact ⟨(Option.some.inj k2).symm, rfl⟩
      · rintro ⟨rfl, rfl⟩
        exact ⟨_, (h2 _ _).2 ⟨rfl, rfl⟩, (isReal_iff ..).2 hp⟩

theorem skipProperty_failed (p : Prop') {s : IS} (h : s.fail = true) : (skipProperty p s).fail = true := by
  unfold skipProperty
  split
  · exact skipTokens_failed _ (readSize_failed h 0)
  · exact readStr_failed h

theorem det_any (N : Doubles F) {p : Property} (hv : p.Valid) {s : IS} (h : Fresh s) : Det s (fun l (_ : Unit) r => Item.Next N (p.any F) l r) (skipProperty (toProp p) s) () := by
  unfold skipProperty Property.any
  by_cases hp : p.isList = true
  · rw [if_pos ((toProp_list hv).2 hp), if_pos hp]
    have := (det_number h).bind (S := fun n l (_ : Unit) r => NextWords n l r) (fun k => skipTokens_failed (s.readSize 0).2 k) (fun k => det_words (s.readSize 0).2 k)
    refine this.congr fun l b r => ⟨fun ⟨x, m, k1, k2⟩ => .list k1 k2, fun k => ?_⟩
    cases k with
    | list k1 k2 => exact ⟨_, _, k1, k2⟩
  · rw [if_neg hp, if_neg (mt (toProp_list hv).1 hp)]
    rcases det_word h with ⟨h1, h2⟩ | ⟨h1, h2⟩
    · refine .inl ⟨h1, fun b r k => ?_⟩
      cases k with
      | word k => exact h2 _ _ k
    · refine .inr ⟨h1, fun b r => ⟨fun k => ?_, ?_⟩⟩
      · cases k with
        | word k => exact ⟨rfl, ((h2 _ _).1 k).2⟩
      · rintro ⟨-, rfl⟩
        exact .word ((h2 _ _).2 ⟨rfl, rfl⟩)

theorem det_vertices (N : Doubles F) {s : IS} (h : Fresh s) : Det s (fun l f r => Item.Next N (.vertices f) l r) (readIndices (s.readSize 0).2 (s.readSize 0).1).1 (readIndices (s.readSize 0).2 (s.readSize 0).1).2 := by
  have := (det_number h).bind (S := fun n l f r => f.length = n ∧ NextNumbers l f r) (fun k => readIndices_failed (s.readSize 0).2 k) (fun k => det_numbers (s.readSize 0).2 k)
  refine this.congr fun l f r => ⟨?_, fun k => ?_⟩
  · rintro ⟨n, m, k1, rfl, k2⟩
    exact .vertices k1 k2
  · cases k with
    | vertices k1 k2 => exact ⟨_, _, k1, rfl, k2⟩

/-! ## Lines -/

/-- What the properties from number `i` must be. -/
def roles (g : Nat → Property → Item F) : Nat → List Property → List (Item F)
  | _, [] => []
  | i, p :: ps => g i p :: roles g (i + 1) ps

theorem roles_getElem? (g : Nat → Property → Item F) (i : Nat) (ps : List Property) (k : Nat) : (roles g i ps)[k]? = ps[k]?.map (g (i + k)) := by
  induction ps generalizing i k with
  | nil => rfl
  | cons p ps ih =>
    cases k with
    | zero => rfl
    | succ k =>
      show (roles g (i + 1) ps)[k]? = _
      rw [ih, show i + 1 + k = i + (k + 1) by omega]
      rfl

def vertexRole (x y z : Nat) (p : P3 F) (i : Nat) (q : Property) : Item F := if i = x then .real p.1 else if i = y then .real p.2.1 else if i = z then .real p.2.2 else q.any F

theorem vertexRoles {x y z : Nat} (hxy : x ≠ y) (hxz : x ≠ z) (hyz : y ≠ z) (p : P3 F) (ps : List Property) : (((ps.map (Property.any F)).set x (.real p.1)).set y (.real p.2.1)).set z (.real p.2.2) = roles (vertexRole x y z p) 0 ps := by
  apply List.ext_getElem?
  intro k
  rw [roles_getElem?]
  simp only [List.getElem?_set, List.length_set, List.length_map, List.getElem?_map, Nat.zero_add, vertexRole]
  by_cases hk : k < ps.length
  · rw [List.getElem?_eq_getElem hk]
    simp only [Option.map_some]
    by_cases h1 : k = x
    · subst h1; simp [vertexRole, hxy.symm, hxz.symm, hk]
    · by_cases h2 : k = y
      · subst h2; simp [vertexRole, h1, hyz.symm, hk]
      · by_cases h3 : k = z
        · subst h3; simp [vertexRole, h1, h2, hk]
        · simp [vertexRole, h1, h2, h3, Ne.symm h1, Ne.symm h2, Ne.symm h3]
  · rw [List.getElem?_eq_none (by omega)]
    simp
    grind

theorem plyVertex_failed (N : Doubles F) (x y z i : Nat) (ps : List Prop') {s : IS} (h : s.fail = true) (v : P3 F) : (plyVertex N x y z i ps s v).1.fail = true := by
  induction ps generalizing i s v with
  | nil => exact h
  | cons p ps ih =>
    obtain ⟨a, b, c⟩ := v
    unfold plyVertex
    dsimp only
    split
    · exact ih _ (readDouble_failed h _) _
    · split
      · exact ih _ (readDouble_failed h _) _
      · split
        · exact ih _ (readDouble_failed h _) _
        · exact ih _ (skipProperty_failed _ h) _

theorem holds_cons {N : Doubles F} {i : Item F} {is : List (Item F)} {l : List Char} : Holds N (i :: is) l ↔ ∃ m, i.Next N l m ∧ Holds N is m :=
  ⟨fun h => by cases h with | cons h hs => exact ⟨_, h, hs⟩, fun ⟨_, h, hs⟩ => .cons h hs⟩

theorem plyVertex_exact (N : Doubles F) {ps : List Property} (hv : ∀ p ∈ ps, p.Valid) {x y z : Nat} (hxy : x ≠ y) (hxz : x ≠ z) (hyz : y ≠ z) (i : Nat) (hx : x < i + ps.length) (hy : y < i + ps.length) (hz : z < i + ps.length) {s : IS} (h : Fresh s) (v p : P3 F) :
    ((plyVertex N x y z i (ps.map toProp) s v).2 = p ∧ (plyVertex N x y z i (ps.map toProp) s v).1.fail = false) ↔
      Holds N (roles (vertexRole x y z p) i ps) s.rest ∧ (x < i → p.1 = v.1) ∧ (y < i → p.2.1 = v.2.1) ∧ (z < i → p.2.2 = v.2.2) := by
  induction ps generalizing i s v with
  | nil =>
    simp only [List.length_nil, Nat.add_zero] at hx hy hz
    refine ⟨?_, ?_⟩
    · rintro ⟨rfl, -⟩
      exact ⟨.nil _, fun _ => rfl, fun _ => rfl, fun _ => rfl⟩
    · rintro ⟨-, k1, k2, k3⟩
      exact ⟨(Prod.ext (k1 hx) (Prod.ext (k2 hy) (k3 hz))).symm, h.1⟩
  | cons q ps ih =>
    obtain ⟨a, b, c⟩ := v
    simp only [List.length_cons] at hx hy hz
    replace ih := fun {s} (h : Fresh s) v => ih (fun p hp => hv p (by simp [hp])) (i + 1) (by omega) (by omega) (by omega) (s := s) h v
    rw [List.map_cons, roles, holds_cons]
    unfold plyVertex
    dsimp only
    -- one property and the rest
    have step : ∀ {A : Type} {R : List Char → A → List Char → Prop} {s1 : IS} {w : A} (good : A → Prop) (_ : Det s R s1 w) (v' : P3 F)
        (_ : ∀ m, (vertexRole x y z p i q).Next N s.rest m ↔ ∃ u, R s.rest u m ∧ good u)
        (_ : (good w ∧ (x < i → p.1 = a) ∧ (y < i → p.2.1 = b) ∧ (z < i → p.2.2 = c)) ↔ ((x < i + 1 → p.1 = v'.1) ∧ (y < i + 1 → p.2.1 = v'.2.1) ∧ (z < i + 1 → p.2.2 = v'.2.2))),
        ((plyVertex N x y z (i + 1) (ps.map toProp) s1 v').2 = p ∧ (plyVertex N x y z (i + 1) (ps.map toProp) s1 v').1.fail = false) ↔
          (∃ m, (vertexRole x y z p i q).Next N s.rest m ∧ Holds N (roles (vertexRole x y z p) (i + 1) ps) m) ∧ (x < i → p.1 = a) ∧ (y < i → p.2.1 = b) ∧ (z < i → p.2.2 = c) := by
      intro A R s1 w good hd v' hn hg
      rcases hd with ⟨h1, h2⟩ | ⟨h1, h2⟩
      · rw [plyVertex_failed N x y z (i + 1) _ h1 v']
        refine ⟨fun k => absurd k.2 (by simp), ?_⟩
        rintro ⟨⟨m, k, -⟩, -⟩
        obtain ⟨u, k, -⟩ := (hn m).1 k
        exact absurd k (h2 u m)
      · rw [ih h1 v', ← hg]
        constructor
        · rintro ⟨k1, k2, k3⟩
          exact ⟨⟨s1.rest, (hn _).2 ⟨w, (h2 _ _).2 ⟨rfl, rfl⟩, k2⟩, k1⟩, k3⟩
        · rintro ⟨⟨m, k1, k2⟩, k3⟩
          obtain ⟨u, k1, k4⟩ := (hn m).1 k1
          obtain ⟨rfl, rfl⟩ := (h2 u m).1 k1
          exact ⟨k2, k4, k3⟩
    by_cases h1 : i = x
    · rw [if_pos h1]
      refine step (fun u => p.1 = u) (det_real N h a) _ (fun m => ?_) ?_
      · simp only [vertexRole, if_pos h1]
        exact ⟨fun k => ⟨_, k, rfl⟩, fun ⟨u, k, e⟩ => e ▸ k⟩
      · dsimp only
        constructor
        · rintro ⟨k1, -, k3, k4⟩
          exact ⟨fun _ => k1, fun _ => k3 (by omega), fun _ => k4 (by omega)⟩
        · rintro ⟨k1, k3, k4⟩
          exact ⟨k1 (by omega), fun _ => by omega, fun _ => k3 (by omega), fun _ => k4 (by omega)⟩
    rw [if_neg h1]
    by_cases h2 : i = y
    · rw [if_pos h2]
      refine step (fun u => p.2.1 = u) (det_real N h b) _ (fun m => ?_) ?_
      · simp only [vertexRole, if_neg h1, if_pos h2]
        exact ⟨fun k => ⟨_, k, rfl⟩, fun ⟨u, k, e⟩ => e ▸ k⟩
      · dsimp only
        constructor
        · rintro ⟨k1, k2, -, k4⟩
          exact ⟨fun _ => k2 (by omega), fun _ => k1, fun _ => k4 (by omega)⟩
        · rintro ⟨k2, k1, k4⟩
          exact ⟨k1 (by omega), fun _ => k2 (by omega), fun _ => by omega, fun _ => k4 (by omega)⟩
    rw [if_neg h2]
    by_cases h3 : i = z
    · rw [if_pos h3]
      refine step (fun u => p.2.2 = u) (det_real N h c) _ (fun m => ?_) ?_
      · simp only [vertexRole, if_neg h1, if_neg h2, if_pos h3]
        exact ⟨fun k => ⟨_, k, rfl⟩, fun ⟨u, k, e⟩ => e ▸ k⟩
      · dsimp only
        constructor
        · rintro ⟨k1, k2, k3, -⟩
          exact ⟨fun _ => k2 (by omega), fun _ => k3 (by omega), fun _ => k1⟩
        · rintro ⟨k2, k3, k1⟩
          exact ⟨k1 (by omega), fun _ => k2 (by omega), fun _ => k3 (by omega), fun _ => by omega⟩
    rw [if_neg h3]
    refine step (fun _ => True) (det_any N (hv q (by simp)) h) _ (fun m => ?_) ?_
    · simp only [vertexRole, if_neg h1, if_neg h2, if_neg h3]
      exact ⟨fun k => ⟨(), k, trivial⟩, fun ⟨u, k, e⟩ => k⟩
    · dsimp only
      constructor
      · rintro ⟨-, k1, k2, k3⟩
        exact ⟨fun _ => k1 (by omega), fun _ => k2 (by omega), fun _ => k3 (by omega)⟩
      · rintro ⟨k1, k2, k3⟩
        exact ⟨trivial, fun _ => k1 (by omega), fun _ => k2 (by omega), fun _ => k3 (by omega)⟩

def faceRole (vi : Nat) (f : List Nat) (i : Nat) (q : Property) : Item F := if i = vi then .vertices f else q.any F

theorem faceRoles (vi : Nat) (f : List Nat) (ps : List Property) : (ps.map (Property.any F)).set vi (.vertices f) = roles (faceRole vi f) 0 ps := by
  apply List.ext_getElem?
  intro k
  rw [roles_getElem?]
  simp only [List.getElem?_set, List.length_map, List.getElem?_map, Nat.zero_add, faceRole]
  by_cases hk : k < ps.length
  · rw [List.getElem?_eq_getElem hk]
    simp only [Option.map_some]
    by_cases h1 : k = vi
    · subst h1; simp [faceRole, hk]
    · simp [faceRole, h1, Ne.symm h1]
  · rw [List.getElem?_eq_none (by omega)]
    simp
    grind

theorem plyFace_failed (vi i : Nat) (ps : List Prop') {s : IS} (h : s.fail = true) (f : List Nat) : (plyFace vi i ps s f).1.fail = true := by
  induction ps generalizing i s f with
  | nil => exact h
  | cons p ps ih =>
    unfold plyFace
    dsimp only
    split
    · exact ih _ (readIndices_failed _ (readSize_failed h 0)) _
    · exact ih _ (skipProperty_failed _ h) _

theorem plyFace_exact (N : Doubles F) {ps : List Property} (hv : ∀ p ∈ ps, p.Valid) {vi : Nat} (i : Nat) (hi : vi < i + ps.length) {s : IS} (h : Fresh s) (f0 f : List Nat) :
    ((plyFace vi i (ps.map toProp) s f0).2 = f0 ++ f ∧ (plyFace vi i (ps.map toProp) s f0).1.fail = false) ↔ Holds N (roles (faceRole vi f) i ps) s.rest ∧ (vi < i → f = []) := by
  induction ps generalizing i s f0 f with
  | nil =>
    simp only [List.length_nil, Nat.add_zero] at hi
    refine ⟨?_, ?_⟩
    · rintro ⟨k, -⟩
      exact ⟨.nil _, fun _ => by simpa [plyFace] using k⟩
    · rintro ⟨-, k⟩
      rw [k hi]
      exact ⟨by simp [plyFace], h.1⟩
  | cons q ps ih =>
    simp only [List.length_cons] at hi
    replace ih := fun {s} (h : Fresh s) f0 f => ih (fun p hp => hv p (by simp [hp])) (i + 1) (by omega) (s := s) h f0 f
    rw [List.map_cons, roles, holds_cons]
    unfold plyFace
    dsimp only
    by_cases h1 : i = vi
    · rw [if_pos h1]
      rcases det_vertices N h with ⟨h2, h3⟩ | ⟨h2, h3⟩
      · rw [plyFace_failed vi (i + 1) _ h2]
        refine ⟨fun k => absurd k.2 (by simp), ?_⟩
        rintro ⟨⟨m, k, -⟩, -⟩
        simp only [faceRole, if_pos h1] at k
        exact absurd k (h3 f m)
      · generalize hg : (readIndices (s.readSize 0).2 (s.readSize 0).1).2 = g at h3 ⊢
        generalize (readIndices (s.readSize 0).2 (s.readSize 0).1).1 = s1 at h2 h3 ⊢
        have same : roles (F := F) (faceRole vi f) (i + 1) ps = roles (faceRole vi []) (i + 1) ps := by
          apply List.ext_getElem?
          intro k
          rw [roles_getElem?, roles_getElem?]
          congr 1
          funext p
          unfold faceRole
          rw [if_neg (by omega), if_neg (by omega)]
        have key := ih h2 (f0 ++ g) []
        rw [List.append_nil] at key
        have all : (plyFace vi (i + 1) (ps.map toProp) s1 (f0 ++ g)).1.fail = false → (plyFace vi (i + 1) (ps.map toProp) s1 (f0 ++ g)).2 = f0 ++ g := by
          intro hf
          have : ∀ (j : Nat) (_ : vi < j) (ps : List Prop') (s : IS) (f0 : List Nat), (plyFace vi j ps s f0).2 = f0 := by
            intro j hj ps
            induction ps generalizing j with
            | nil => intro s f0; rfl
            | cons p ps ih =>
              intro s f0
              unfold plyFace
              rw [if_neg (by omega)]
              exact ih (j + 1) (by omega) _ _
          exact this (i + 1) (by omega) _ _ _
        constructor
        · rintro ⟨k1, k2⟩
          have e : g = f := List.append_cancel_left ((all k2).symm.trans k1)
          subst e
          refine ⟨⟨s1.rest, ?_, ?_⟩, fun _ => by omega⟩
          · simp only [faceRole, if_pos h1]
            exact (h3 _ _).2 ⟨rfl, rfl⟩
          · rw [same]
            exact (key.1 ⟨all k2, k2⟩).1
        · rintro ⟨⟨m, k1, k2⟩, -⟩
          simp only [faceRole, if_pos h1] at k1
          obtain ⟨rfl, rfl⟩ := (h3 _ _).1 k1
          rw [same] at k2
          exact key.2 ⟨k2, fun _ => rfl⟩
    · rw [if_neg h1]
      simp only [faceRole, if_neg h1]
      rcases det_any N (hv q (by simp)) h with ⟨h2, h3⟩ | ⟨h2, h3⟩
      · rw [plyFace_failed vi (i + 1) _ h2]
        refine ⟨fun k => absurd k.2 (by simp), ?_⟩
        rintro ⟨⟨m, k, -⟩, -⟩
        exact absurd k (h3 () m)
      · rw [ih h2 f0 f]
        constructor
        · rintro ⟨k1, k2⟩
          exact ⟨⟨_, (h3 () _).2 ⟨rfl, rfl⟩, k1⟩, fun _ => k2 (by omega)⟩
        · rintro ⟨⟨m, k1, k2⟩, k3⟩
          obtain ⟨-, rfl⟩ := (h3 () m).1 k1
          exact ⟨k2, fun _ => k3 (by omega)⟩

theorem First.lt {α : Type} {l : List α} {P : α → Prop} {i : Nat} (h : First l P i) : i < l.length := by
  obtain ⟨⟨a, h, -⟩, -⟩ := h
  exact (List.getElem?_eq_some_iff.1 h).1

theorem vertexLine_iff {N : Doubles F} {e : Element} (he : ∀ p ∈ e.props, p.Valid) {q : PlyPlan} (hx : Coordinate e.props "x".toList q.x) (hy : Coordinate e.props "y".toList q.y) (hz : Coordinate e.props "z".toList q.z) (l : List Char) (p : P3 F) :
    PlyVertexLine N q (toElem e) l p ↔ VertexTaken N e.props l p := by
  have hxy := coordinates_ne (by decide) hx hy
  have hxz := coordinates_ne (by decide) hx hz
  have hyz := coordinates_ne (by decide) hy hz
  have key := plyVertex_exact N he hxy hxz hyz 0 (by simpa using First.lt hx) (by simpa using First.lt hy) (by simpa using First.lt hz) (fresh_of l) (N.zero, N.zero, N.zero) p
  refine key.trans ⟨fun k => ⟨q.x, q.y, q.z, hx, hy, hz, ?_⟩, ?_⟩
  · rw [vertexRoles hxy hxz hyz]
    exact k.1
  · rintro ⟨x, y, z, h1, h2, h3, h4⟩
    obtain rfl := First.unique hx h1
    obtain rfl := First.unique hy h2
    obtain rfl := First.unique hz h3
    rw [vertexRoles hxy hxz hyz] at h4
    exact ⟨h4, fun h => by omega, fun h => by omega, fun h => by omega⟩

theorem faceLine_iff (N : Doubles F) {e : Element} (he : ∀ p ∈ e.props, p.Valid) {q : PlyPlan} (hi : Vertices e.props q.vi) (l : List Char) (f : List Nat) : PlyFaceLine q (toElem e) l f ↔ FaceTaken N e.props l f := by
  have key := plyFace_exact N he 0 (by simpa using First.lt hi) (fresh_of l) [] f
  rw [List.nil_append] at key
  refine key.trans ⟨fun k => ⟨q.vi, hi, ?_⟩, ?_⟩
  · rw [faceRoles]
    exact k.1
  · rintro ⟨i, h1, h2⟩
    obtain rfl := First.unique hi h1
    rw [faceRoles] at h2
    exact ⟨h2, fun h => by omega⟩

end Kigumi.Text
