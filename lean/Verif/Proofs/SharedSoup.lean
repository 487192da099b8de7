import Verif.Model.SharedSoup
import Verif.Props.SoupCache

/-! # Invariants of a soup that several threads ask for its index -/
namespace Kigumi.SharedSoup
open Kigumi Outcome
open Kigumi.SoupCache (Leaf)

variable {P T : Type}

/-- The thread has locked the mutex. -/
def Pc.inside : Pc P T → Bool
  | .entered | .collecting _ | .ready | .leaving _ => true
  | _ => false

/-- The thread has seen the tree, or made it. -/
def Pc.has : Pc P T → Bool
  | .ready | .leaving (some _) | .done (some _) => true
  | _ => false

/-- The leaves of the first faces. -/
def Collected (E : Env P T) (acc : List (Leaf P)) : Prop :=
  acc.length ≤ E.faces.length ∧ ∀ j < acc.length, ∃ f c, E.faces[j]? = some f ∧ SoupCache.corners E.points f = ok c ∧ acc[j]? = some (j, c)

/-- There is something to throw about. -/
def Throws (E : Env P T) : Prop := E.mayFail ∨ ∃ f ∈ E.faces, ∃ e, SoupCache.corners E.points f = exn e

def Local (E : Env P T) (tree : Option T) : Pc P T → Prop
  | .collecting acc => tree = none ∧ Collected E acc
  | .ready => tree ≠ none
  | .leaving (some t) | .done (some t) => tree = some t
  | .leaving none | .done none => Throws E
  | .crashed => False
  | _ => True

structure Inv (E : Env P T) (t0 : Option T) (s : State P T) : Prop where
  excl : ∀ (i : Nat) pc, s.threads[i]? = some pc → pc.inside = true → s.owner = some i
  own : ∀ (i : Nat), s.owner = some i → ∃ pc, s.threads[i]? = some pc ∧ pc.inside = true
  loc : ∀ (i : Nat) pc, s.threads[i]? = some pc → Local E s.tree pc
  good : ∀ t, s.tree = some t → t0 = some t ∨ ∃ acc, Collected E acc ∧ acc.length = E.faces.length ∧ E.Makes acc t
  keep : ∀ t, t0 = some t → s.tree = some t
  made : s.tree = t0 ∨ ∃ (i : Nat) (pc : Pc P T), s.threads[i]? = some pc ∧ pc.has = true

theorem Inv.init (E : Env P T) (n : Nat) (t0 : Option T) : Inv E t0 (init n t0) := by
  have hs : ∀ {i : Nat} {pc : Pc P T}, (List.replicate n (Pc.start : Pc P T))[i]? = some pc → pc = .start := by
    intro i pc h
    exact List.eq_of_mem_replicate (List.mem_of_getElem? h)
  refine ⟨?_, ?_, ?_, fun t h => Or.inl h, fun t h => h, Or.inl rfl⟩
  · intro i pc h hi
    rw [hs h] at hi; cases hi
  · intro i h; cases h
  · intro i pc h; rw [hs h]; trivial

theorem Collected.snoc {E : Env P T} {acc : List (Leaf P)} (h : Collected E acc) {f : Tri Nat} {c : Tri P} (hf : E.faces[acc.length]? = some f)
    (hc : SoupCache.corners E.points f = ok c) : Collected E (acc ++ [(acc.length, c)]) := by
  have hl := (List.getElem?_eq_some_iff.1 hf).1
  refine ⟨by simp; omega, ?_⟩
  intro j hj
  simp at hj
  by_cases hjl : j < acc.length
  · obtain ⟨f', c', h1, h2, h3⟩ := h.2 j hjl
    exact ⟨f', c', h1, h2, by rw [List.getElem?_append_left hjl]; exact h3⟩
  · have : j = acc.length := by omega
    subst this
    exact ⟨f, c, hf, hc, by simp⟩

theorem corners_not_ub {pts : List P} {f : Tri Nat} {e : String} : SoupCache.corners pts f ≠ ub e := by
  intro h
  unfold SoupCache.corners at! at h
  cases h1 : pts[f.a]? <;> cases h2 : pts[f.b]? <;> cases h3 : pts[f.c]? <;> simp only [h1, h2, h3, ok_bind, exn_bind] at h <;> cases h

/-- What one step of a thread does, for itself and for the others. -/
theorem Act.spec {E : Env P T} {t0 : Option T} {i : Nat} {t t' : Option T} {o o' : Option Nat} {pc pc' : Pc P T} (h : Act E i t o pc t' o' pc') (hl : Local E t pc)
    (hin : pc.inside = true → o = some i) :
    Local E t' pc' ∧ (pc'.inside = true → o' = some i) ∧ (∀ j, j ≠ i → (o = some j ↔ o' = some j)) ∧ (o' = some i → pc'.inside = true) ∧
    (t' = t ∨ (t = none ∧ o = some i ∧ pc'.has = true ∧ ∃ x acc, t' = some x ∧ Collected E acc ∧ acc.length = E.faces.length ∧ E.Makes acc x)) ∧
    (pc.has = true → pc'.has = true) := by
  cases h with
  | lock => exact ⟨trivial, fun _ => rfl, fun j hj => by simp [Ne.symm hj], fun _ => rfl, Or.inl rfl, fun h => by cases h⟩
  | found => exact ⟨by simp [Local], fun _ => hin rfl, fun j hj => Iff.rfl, fun _ => rfl, Or.inl rfl, fun h => by cases h⟩
  | missing => exact ⟨⟨rfl, by simp, fun j hj => absurd hj (by simp)⟩, fun _ => hin rfl, fun j hj => Iff.rfl, fun _ => rfl, Or.inl rfl, fun h => by cases h⟩
  | leaf hf hc => exact ⟨⟨hl.1, hl.2.snoc hf hc⟩, fun _ => hin rfl, fun j hj => Iff.rfl, fun _ => rfl, Or.inl rfl, fun h => by cases h⟩
  | bad hf hc => exact ⟨Or.inr ⟨_, List.mem_of_getElem? hf, _, hc⟩, fun _ => hin rfl, fun j hj => Iff.rfl, fun _ => rfl, Or.inl rfl, fun h => by cases h⟩
  | fail hm => exact ⟨Or.inl hm, fun _ => hin rfl, fun j hj => Iff.rfl, fun _ => rfl, Or.inl rfl, fun h => by cases h⟩
  | make hlen hm => exact ⟨by simp [Local], fun _ => hin rfl, fun j hj => Iff.rfl, fun _ => rfl, Or.inr ⟨hl.1, hin rfl, rfl, _, _, rfl, hl.2, hlen, hm⟩, fun h => by cases h⟩
  | ret => exact ⟨rfl, fun _ => hin rfl, fun j hj => Iff.rfl, fun _ => rfl, Or.inl rfl, fun _ => rfl⟩
  | crash => exact absurd rfl hl
  | unlock =>
    rename_i r
    have ho := hin rfl
    refine ⟨by cases r <;> exact hl, (fun h => by cases h), (fun j hj => by rw [ho]; simp [Ne.symm hj]), (fun h => by cases h), Or.inl rfl, ?_⟩
    intro h; cases r
    · cases h
    · rfl

theorem Local.mono {E : Env P T} {pc : Pc P T} (h : Local E none pc) (hi : pc.inside = false) (x : T) : Local E (some x) pc := by
  cases pc with
  | done r => cases r with
    | none => exact h
    | some t => cases h
  | start => trivial
  | crashed => exact h
  | _ => cases hi

theorem Inv.step {E : Env P T} {t0 : Option T} {s s' : State P T} (h : Inv E t0 s) (st : Step E s s') : Inv E t0 s' := by
  cases st with
  | of hi act =>
    rename_i i pc pc' t' o'
    obtain ⟨h1, h2, h3, h4, h5, h6⟩ := act.spec (t0 := t0) (h.loc _ _ hi) (h.excl _ _ hi)
    have hlt := (List.getElem?_eq_some_iff.1 hi).1
    have get : ∀ {j : Nat} {q : Pc P T}, (s.threads.set i pc')[j]? = some q → (j = i ∧ q = pc') ∨ (j ≠ i ∧ s.threads[j]? = some q) := by
      intro j q hj
      rw [List.getElem?_set] at hj
      split at hj
      · rename_i hij
        subst hij
        exact Or.inl ⟨rfl, (Option.some.inj hj).symm⟩
      · rename_i hij
        exact Or.inr ⟨fun hh => hij hh.symm, hj⟩
    have self : (s.threads.set i pc')[i]? = some pc' := by rw [List.getElem?_set]; simp [hlt]
    have other : ∀ {j : Nat}, j ≠ i → (s.threads.set i pc')[j]? = s.threads[j]? := by
      intro j hj; rw [List.getElem?_set]; simp [Ne.symm hj]
    refine ⟨?_, ?_, ?_, ?_, ?_, ?_⟩
    · intro j q hj hq
      rcases get hj with ⟨rfl, rfl⟩ | ⟨hne, hj⟩
      · exact h2 hq
      · exact (h3 j hne).1 (h.excl _ _ hj hq)
    · intro j hj
      by_cases hji : j = i
      · subst hji; exact ⟨pc', self, h4 hj⟩
      · obtain ⟨q, hq, hqi⟩ := h.own j ((h3 j hji).2 hj)
        exact ⟨q, by show (s.threads.set i pc')[j]? = _; rw [other hji]; exact hq, hqi⟩
    · intro j q hj
      rcases get hj with ⟨rfl, rfl⟩ | ⟨hne, hj⟩
      · exact h1
      · have hq := h.loc _ _ hj
        rcases h5 with ht | ⟨ht, ho, -, x, acc, hx, -⟩
        · show Local E t' q
          rw [ht]; exact hq
        · show Local E t' q
          rw [ht] at hq
          rw [hx]
          refine hq.mono ?_ x
          cases hqi : q.inside with
          | false => rfl
          | true =>
            have := h.excl _ _ hj hqi
            rw [ho] at this
            exact absurd (Option.some.inj this).symm hne
    · intro t ht
      have ht' : t' = some t := ht
      rcases h5 with h5 | ⟨-, -, -, x, acc, hx, hr⟩
      · exact h.good t (by rw [← h5]; exact ht')
      · rw [hx] at ht'; cases ht'
        exact Or.inr ⟨acc, hr⟩
    · intro t ht
      have := h.keep t ht
      rcases h5 with h5 | ⟨h5, -⟩
      · show t' = _; rw [h5]; exact this
      · rw [h5] at this; cases this
    · rcases h5 with h5 | ⟨-, -, hh, -⟩
      · rcases h.made with hm | ⟨j, q, hj, hq⟩
        · exact Or.inl (by show t' = _; rw [h5]; exact hm)
        · by_cases hji : j = i
          · subst hji
            rw [hi] at hj; cases hj
            exact Or.inr ⟨j, pc', self, h6 hq⟩
          · exact Or.inr ⟨j, q, by show (s.threads.set i pc')[j]? = _; rw [other hji]; exact hj, hq⟩
      · exact Or.inr ⟨i, pc', self, hh⟩

theorem Inv.steps {E : Env P T} {t0 : Option T} {s s' : State P T} (h : Inv E t0 s) (st : Steps E s s') : Inv E t0 s' := by
  induction st with
  | refl => exact h
  | step _ st ih => exact ih.step st

theorem length_step {E : Env P T} {s s' : State P T} (st : Step E s s') : s'.threads.length = s.threads.length := by
  cases st; simp

theorem length_steps {E : Env P T} {s s' : State P T} (st : Steps E s s') : s'.threads.length = s.threads.length := by
  induction st with
  | refl => rfl
  | step _ st ih => rw [length_step st, ih]

/-- How many steps a call still has, at most. -/
def weight (F : Nat) : Pc P T → Nat
  | .start => F + 6
  | .entered => F + 5
  | .collecting acc => F - acc.length + 3
  | .ready => 2
  | .leaving _ => 1
  | .done _ => 0
  | .crashed => 0

theorem weight_lt {E : Env P T} {i : Nat} {t t' : Option T} {o o' : Option Nat} {pc pc' : Pc P T} (h : Act E i t o pc t' o' pc') :
    weight E.faces.length pc' < weight E.faces.length pc := by
  cases h with
  | leaf hf _ =>
    have := (List.getElem?_eq_some_iff.1 hf).1
    simp [weight]; omega
  | _ => simp [weight] <;> omega

theorem sum_set (w : Pc P T → Nat) : ∀ (l : List (Pc P T)) (i : Nat) (a b : Pc P T), l[i]? = some a → w b < w a → ((l.set i b).map w).sum < (l.map w).sum := by
  intro l
  induction l with
  | nil => intro i a b h; simp at h
  | cons x l ih =>
    intro i a b h hw
    cases i with
    | zero => simp at h; subst h; simpa using hw
    | succ i =>
      have := ih i a b (by simpa using h) hw
      simpa using this

theorem total_lt {E : Env P T} {s s' : State P T} (st : Step E s s') :
    (s'.threads.map (weight E.faces.length)).sum < (s.threads.map (weight E.faces.length)).sum := by
  cases st with
  | of hi act => exact sum_set _ _ _ _ _ hi (weight_lt act)

/-- A thread inside can go on. -/
theorem Act.exists {E : Env P T} {t : Option T} {o : Option Nat} (hmk : ∀ acc, Collected E acc → acc.length = E.faces.length → ∃ x, E.Makes acc x) {i : Nat} {pc : Pc P T}
    (hl : Local E t pc) (hin : pc.inside = true) : ∃ t' o' pc', Act E i t o pc t' o' pc' := by
  cases pc with
  | entered => cases t with
    | none => exact ⟨_, _, _, .missing⟩
    | some t => exact ⟨_, _, _, .found⟩
  | collecting acc =>
    by_cases hlen : acc.length = E.faces.length
    · obtain ⟨x, hx⟩ := hmk acc hl.2 hlen
      exact ⟨_, _, _, .make hlen hx⟩
    · have hlt : acc.length < E.faces.length := by have := hl.2.1; omega
      have hf := List.getElem?_eq_getElem hlt
      cases hc : SoupCache.corners E.points E.faces[acc.length] with
      | ok c => exact ⟨_, _, _, .leaf hf hc⟩
      | exn e => exact ⟨_, _, _, .bad hf hc⟩
      | ub e => exact absurd hc corners_not_ub
  | ready => cases t with
    | none => exact absurd rfl hl
    | some t => exact ⟨_, _, _, .ret⟩
  | leaving r => exact ⟨_, _, _, .unlock⟩
  | _ => cases hin

theorem Collected.describes {E : Env P T} {acc : List (Leaf P)} (h : Collected E acc) (hlen : acc.length = E.faces.length) : Spec.Describes E.points E.faces acc := by
  refine ⟨hlen, fun i f hf => ?_⟩
  have hi := (List.getElem?_eq_some_iff.1 hf).1
  obtain ⟨f', c, h1, h2, h3⟩ := h.2 i (by omega)
  rw [hf] at h1; cases h1
  exact ⟨c, h3, SoupCache.corners_ok h2⟩

end Kigumi.SharedSoup
