import Verif.Model.ParallelDo
import Verif.Tactics

/-! Invariants of the parallel loop. -/
namespace Kigumi.ParallelDo
open Kigumi

variable {S E G : Type} {P : Params S E G} {n : Nat} {g : G}

/-- Ownership of indices. -/
structure Own (P : Params S E G) (n : Nat) (c : Cfg S E G) : Prop where
  len : c.owner.length = min c.next P.size
  lt : ∀ i t : Nat, c.owner[i]? = some t → t < n
  logLt : ∀ i ∈ c.log, i < c.owner.length
  nodup : c.log.Nodup
  run : ∀ t i s, c.pc t = .run i s → c.owner[i]? = some t ∧ i ∉ c.log
  cover : ∀ i, i < c.owner.length → i ∈ c.log ∨ ∃ t s, t < n ∧ c.pc t = .run i s
  idle : ∀ t, n ≤ t → c.pc t = .start

theorem own_step {c c' : Cfg S E G} {t : Nat} (ht : t < n) (h : Own P n c) (st : Step P t c c') : Own P n c' := by
  obtain ⟨h1, h2, h3, h4, h5, h6, h7⟩ := h
  cases st with
  | @fetch s0 hp hn =>
    have hlen : c.owner.length = c.next := by rw [h1]; omega
    constructor
    · simp; omega
    · intro i u; simp only [List.getElem?_append, List.getElem?_singleton]; grind
    · intro i hi; have := h3 i hi; simp; omega
    · exact h4
    · intro u i s; simp only [upd, List.getElem?_append, List.getElem?_singleton]
      by_cases hu : u = t
      · rw [if_pos hu]; intro h
        simp only [Pc.run.injEq] at h
        obtain ⟨rfl, -⟩ := h
        refine ⟨by simp [hlen, hu], fun hl => ?_⟩
        have := h3 _ hl; omega
      · rw [if_neg hu]; intro h
        have := h5 u i s h
        refine ⟨?_, this.2⟩
        have hi : i < c.owner.length := by
          by_contra hc; rw [List.getElem?_eq_none (by omega)] at this; simp at this
        rw [if_pos hi]; exact this.1
    · intro i hi
      simp at hi
      by_cases hi' : i < c.owner.length
      · rcases h6 i hi' with h | ⟨u, s, hu, h⟩
        · exact Or.inl h
        · refine Or.inr ⟨u, s, hu, ?_⟩
          have : u ≠ t := by rintro rfl; rw [hp] at h; simp at h
          simp [upd, this, h]
      · right
        refine ⟨t, s0, ht, ?_⟩
        have : i = c.next := by omega
        simp [upd, this]
    · intro u hu; have : u ≠ t := by omega
      simp [upd, this, h7 u hu]
  | stop hp hn =>
    constructor
    · simp; omega
    · exact h2
    · exact h3
    · exact h4
    · intro u i s; simp only [upd]; grind
    · intro i hi; rcases h6 i hi with h | ⟨u, s, hu, h⟩
      · exact Or.inl h
      · refine Or.inr ⟨u, s, hu, ?_⟩
        have : u ≠ t := by rintro rfl; rw [hp] at h; simp at h
        simp [upd, this, h]
    · intro u hu; have : u ≠ t := by omega
      simp [upd, this, h7 u hu]
  | @runOk i s s' hp hb =>
    constructor
    · exact h1
    · exact h2
    · intro j hj; simp at hj; rcases hj with hj | rfl
      · exact h3 j hj
      · have := (h5 t _ _ hp).1
        by_contra hc; rw [List.getElem?_eq_none (by simp at hc; omega)] at this; simp at this
    · have := (h5 t _ _ hp).2
      rw [List.nodup_append]; simp [h4]; grind
    · intro u j s2; simp only [upd]
      by_cases hu : u = t
      · simp [hu]
      · rw [if_neg hu]; intro h
        have a := h5 u j s2 h
        have b := h5 t i s hp
        refine ⟨a.1, ?_⟩
        simp [a.2]; rintro rfl
        have := a.1.symm.trans b.1; simp at this; exact hu this
    · intro j hj
      rcases h6 j hj with h | ⟨u, s2, hu, h⟩
      · left; simp [h]
      · by_cases hut : u = t
        · subst hut; rw [hp] at h; simp at h; left; simp [h.1]
        · right; exact ⟨u, s2, hu, by simp [upd, hut, h]⟩
    · intro u hu; have : u ≠ t := by omega
      simp [upd, this, h7 u hu]
  | @runThrow i s e hp hb =>
    constructor
    · exact h1
    · exact h2
    · intro j hj; simp at hj; rcases hj with hj | rfl
      · exact h3 j hj
      · have := (h5 t _ _ hp).1
        by_contra hc; rw [List.getElem?_eq_none (by simp at hc; omega)] at this; simp at this
    · have := (h5 t _ _ hp).2
      rw [List.nodup_append]; simp [h4]; grind
    · intro u j s2; simp only [upd]
      by_cases hu : u = t
      · simp [hu]
      · rw [if_neg hu]; intro h
        have a := h5 u j s2 h
        have b := h5 t i s hp
        refine ⟨a.1, ?_⟩
        simp [a.2]; rintro rfl
        have := a.1.symm.trans b.1; simp at this; exact hu this
    · intro j hj
      rcases h6 j hj with h | ⟨u, s2, hu, h⟩
      · left; simp [h]
      · by_cases hut : u = t
        · subst hut; rw [hp] at h; simp at h; left; simp [h.1]
        · right; exact ⟨u, s2, hu, by simp [upd, hut, h]⟩
    · intro u hu; have : u ≠ t := by omega
      simp [upd, this, h7 u hu]
  | _ =>
    rename_i hp
    constructor
    · exact h1
    · exact h2
    · exact h3
    · exact h4
    · intro u i s; simp only [upd]; grind
    · intro i hi; rcases h6 i hi with h | ⟨u, s, hu, h⟩
      · exact Or.inl h
      · refine Or.inr ⟨u, s, hu, ?_⟩
        have : u ≠ t := by rintro rfl; grind
        simp [upd, this, h]
    · intro u hu; have : u ≠ t := by omega
      simp [upd, this, h7 u hu]

theorem own_exec {k : Nat} {c : Cfg S E G} (h : Exec P n g k c) : Own P n c := by
  induction h with
  | nil => constructor <;> simp [Cfg.initial]
  | snoc _ ht st ih => exact own_step ht ih st

/-! ### Local states -/

/-- The elements processed by thread `t`, in order. -/
def mine (c : Cfg S E G) (t : Nat) : List Nat := c.log.filter (fun i => c.owner[i]? == some t)

/-- Applying the body to a list of elements, one after the other. -/
def bodies (P : Params S E G) : List Nat → S → Except E S
  | [], s => .ok s
  | i :: is, s => match P.body i s with
    | .ok s' => bodies P is s'
    | .error e => .error e

theorem bodies_append (l1 l2 : List Nat) (s : S) :
    bodies P (l1 ++ l2) s = match bodies P l1 s with | .ok s' => bodies P l2 s' | .error e => .error e := by
  induction l1 generalizing s with
  | nil => rfl
  | cons i is ih =>
    simp only [List.cons_append, bodies]
    cases P.body i s with
    | ok s' => exact ih s'
    | error e => rfl

/-- The local state held by a thread. -/
def Pc.local? : Pc S E → Option S
  | .fetch s | .run _ s | .check s | .wantPost s | .inPost s => some s
  | _ => none

/-- Local states and merged states. -/
structure Loc (P : Params S E G) (n : Nat) (c : Cfg S E G) : Prop where
  st : ∀ t s, (c.pc t).local? = some s → bodies P (mine c t) P.init = .ok s
  start : ∀ t, c.pc t = .start → mine c t = []
  post : ∀ t s, c.pc t = .wantPost s ∨ c.pc t = .inPost s → P.size ≤ c.next ∧ P.hasPost = true
  merged : ∀ t s, (t, s) ∈ c.merged → c.pc t = .done ∧ bodies P (mine c t) P.init = .ok s ∧ P.size ≤ c.next ∧ t < n
  mnodup : (c.merged.map Prod.fst).Nodup

theorem mine_upd_pc (c : Cfg S E G) (f : Nat → Pc S E) (t : Nat) : mine { c with pc := f } t = mine c t := rfl

theorem loc_step {c c' : Cfg S E G} {t : Nat} (ht : t < n) (ho : Own P n c) (h : Loc P n c) (st : Step P t c c') :
    Loc P n c' := by
  obtain ⟨h1, h2, h3, h4, h5⟩ := h
  cases st with
  | @start hp =>
    have hm : ∀ u, mine { c with pc := upd c.pc t (.fetch P.init) } u = mine c u := fun u => rfl
    constructor
    · intro u s; simp only [upd, hm]; by_cases hu : u = t
      · subst hu; simp [Pc.local?]; rintro rfl; rw [h2 u hp]; rfl
      · rw [if_neg hu]; exact h1 u s
    · intro u; simp only [upd, hm]; by_cases hu : u = t
      · simp [hu]
      · rw [if_neg hu]; exact h2 u
    · intro u s; simp only [upd]; by_cases hu : u = t
      · simp [hu]
      · rw [if_neg hu]; exact h3 u s
    · intro u s hus
      have := h4 u s hus
      have hu : u ≠ t := by rintro rfl; rw [hp] at this; simp at this
      simpa [upd, hu, hm] using this
    · exact h5
  | @fetch s0 hp hn =>
    have hlen : c.owner.length = c.next := by rw [ho.len]; omega
    have hm : ∀ u, mine { c with next := c.next + 1, owner := c.owner ++ [t], pc := upd c.pc t (.run c.next s0) } u
        = mine c u := by
      intro u; unfold mine
      apply List.filter_congr
      intro i hi
      have := ho.logLt i hi
      simp only
      rw [List.getElem?_append_left this]
    constructor
    · intro u s; simp only [upd, hm]; by_cases hu : u = t
      · subst hu; simp [Pc.local?]; rintro rfl; exact h1 u _ (by rw [hp]; rfl)
      · rw [if_neg hu]; exact h1 u s
    · intro u; simp only [upd, hm]; by_cases hu : u = t
      · simp [hu]
      · rw [if_neg hu]; exact h2 u
    · intro u s; simp only [upd]; by_cases hu : u = t
      · simp [hu]
      · rw [if_neg hu]; intro h; have := h3 u s h; exact ⟨by omega, this.2⟩
    · intro u s hus
      have := h4 u s hus
      have hu : u ≠ t := by rintro rfl; rw [hp] at this; simp at this
      rw [hm]; simp [upd, hu]; refine ⟨this.1, this.2.1, by omega, this.2.2.2⟩
    · exact h5
  | @stop s0 hp hn =>
    have hm : ∀ u, mine { c with next := c.next + 1, pc := upd c.pc t (if P.hasPost then .wantPost s0 else .done) } u
        = mine c u := fun u => rfl
    constructor
    · intro u s; simp only [upd, hm]; by_cases hu : u = t
      · subst hu; rw [if_pos rfl]
        cases P.hasPost
        · simp [Pc.local?]
        · simp [Pc.local?]; rintro rfl; exact h1 u _ (by rw [hp]; rfl)
      · rw [if_neg hu]; exact h1 u s
    · intro u; simp only [upd, hm]; by_cases hu : u = t
      · subst hu; rw [if_pos rfl]; cases P.hasPost <;> simp
      · rw [if_neg hu]; exact h2 u
    · intro u s; simp only [upd]; by_cases hu : u = t
      · subst hu; rw [if_pos rfl]
        cases hpp : P.hasPost
        · simp
        · simp; omega
      · rw [if_neg hu]; intro h; have := h3 u s h; exact ⟨by omega, this.2⟩
    · intro u s hus
      have := h4 u s hus
      have hu : u ≠ t := by rintro rfl; rw [hp] at this; simp at this
      rw [hm]; simp [upd, hu]; refine ⟨this.1, this.2.1, by omega, this.2.2.2⟩
    · exact h5
  | @runOk i s0 s' hp hb =>
    have how := ho.run t i s0 hp
    have hmt : mine { c with log := c.log ++ [i], pc := upd c.pc t (.check s') } t = mine c t ++ [i] := by
      unfold mine; simp [List.filter_append, how.1]
    have hm : ∀ u, u ≠ t → mine { c with log := c.log ++ [i], pc := upd c.pc t (.check s') } u = mine c u := by
      intro u hu; unfold mine; simp [List.filter_append, how.1]; exact fun h => hu h.symm
    constructor
    · intro u s; simp only [upd]; by_cases hu : u = t
      · subst hu; rw [hmt]; simp [Pc.local?]; rintro rfl
        rw [bodies_append, h1 u s0 (by rw [hp]; rfl)]; simp [bodies, hb]
      · rw [if_neg hu, hm u hu]; exact h1 u s
    · intro u; simp only [upd]; by_cases hu : u = t
      · simp [hu]
      · rw [if_neg hu, hm u hu]; exact h2 u
    · intro u s; simp only [upd]; by_cases hu : u = t
      · simp [hu]
      · rw [if_neg hu]; exact h3 u s
    · intro u s hus
      have := h4 u s hus
      have hu : u ≠ t := by rintro rfl; rw [hp] at this; simp at this
      rw [hm u hu]; simpa [upd, hu] using this
    · exact h5
  | @runThrow i s0 e hp hb =>
    have how := ho.run t i s0 hp
    have hm : ∀ u, u ≠ t → mine { c with log := c.log ++ [i], thrown := c.thrown ++ [e], pc := upd c.pc t (.wantCatch e) } u = mine c u := by
      intro u hu; unfold mine; simp [List.filter_append, how.1]; exact fun h => hu h.symm
    constructor
    · intro u s; simp only [upd]; by_cases hu : u = t
      · subst hu; simp [Pc.local?]
      · rw [if_neg hu, hm u hu]; exact h1 u s
    · intro u; simp only [upd]; by_cases hu : u = t
      · simp [hu]
      · rw [if_neg hu, hm u hu]; exact h2 u
    · intro u s; simp only [upd]; by_cases hu : u = t
      · simp [hu]
      · rw [if_neg hu]; exact h3 u s
    · intro u s hus
      have := h4 u s hus
      have hu : u ≠ t := by rintro rfl; rw [hp] at this; simp at this
      rw [hm u hu]; simpa [upd, hu] using this
    · exact h5
  | @postOk s0 g' hp hb =>
    have hm : ∀ u, mine { c with lock := none, acc := g', merged := c.merged ++ [(t, s0)], pc := upd c.pc t .done } u
        = mine c u := fun u => rfl
    have hnew : ∀ s, (t, s) ∉ c.merged := by
      intro s hs; have := (h4 t s hs).1; rw [hp] at this; simp at this
    constructor
    · intro u s; simp only [upd, hm]; by_cases hu : u = t
      · simp [hu, Pc.local?]
      · rw [if_neg hu]; exact h1 u s
    · intro u; simp only [upd, hm]; by_cases hu : u = t
      · simp [hu]
      · rw [if_neg hu]; exact h2 u
    · intro u s; simp only [upd]; by_cases hu : u = t
      · simp [hu]
      · rw [if_neg hu]; exact h3 u s
    · intro u s hus
      simp at hus
      rcases hus with hus | ⟨rfl, rfl⟩
      · have := h4 u s hus
        by_cases hu : u = t
        · subst hu; exact absurd hus (hnew s)
        · simpa [upd, hu, hm] using this
      · refine ⟨by simp [upd], ?_, (h3 u s (Or.inr hp)).1, ht⟩
        rw [hm]; exact h1 u s (by rw [hp]; rfl)
    · simp only [List.map_append, List.map_cons, List.map_nil]
      rw [List.nodup_append]
      refine ⟨h5, by simp, ?_⟩
      intro a ha b hb hab
      simp at hb; subst hb; subst hab
      rw [List.mem_map] at ha
      obtain ⟨⟨a, s⟩, h, rfl⟩ := ha
      exact hnew s h
  | @checkGo s0 hp he =>
    have hm : ∀ u, mine { c with pc := upd c.pc t (.fetch s0) } u = mine c u := fun u => rfl
    constructor
    · intro u s; simp only [upd, hm]; by_cases hu : u = t
      · subst hu; simp [Pc.local?]; rintro rfl; exact h1 u _ (by rw [hp]; rfl)
      · rw [if_neg hu]; exact h1 u s
    · intro u; simp only [upd, hm]; by_cases hu : u = t
      · simp [hu]
      · rw [if_neg hu]; exact h2 u
    · intro u s; simp only [upd]; by_cases hu : u = t
      · simp [hu]
      · rw [if_neg hu]; exact h3 u s
    · intro u s hus
      have := h4 u s hus
      have hu : u ≠ t := by rintro rfl; rw [hp] at this; simp at this
      simpa [upd, hu, hm] using this
    · exact h5
  | @lockPost s0 hp he =>
    have hm : ∀ u, mine { c with lock := some t, pc := upd c.pc t (.inPost s0) } u = mine c u := fun u => rfl
    constructor
    · intro u s; simp only [upd, hm]; by_cases hu : u = t
      · subst hu; simp [Pc.local?]; rintro rfl; exact h1 u _ (by rw [hp]; rfl)
      · rw [if_neg hu]; exact h1 u s
    · intro u; simp only [upd, hm]; by_cases hu : u = t
      · simp [hu]
      · rw [if_neg hu]; exact h2 u
    · intro u s; simp only [upd]; by_cases hu : u = t
      · subst hu; intro _; exact h3 u s0 (Or.inl hp)
      · rw [if_neg hu]; exact h3 u s
    · intro u s hus
      have := h4 u s hus
      have hu : u ≠ t := by rintro rfl; rw [hp] at this; simp at this
      simpa [upd, hu, hm] using this
    · exact h5
  | _ =>
    rename_i hp
    constructor
    · intro u s; simp only [upd]; by_cases hu : u = t
      · simp [hu, Pc.local?]
      · rw [if_neg hu]; exact h1 u s
    · intro u; simp only [upd]; by_cases hu : u = t
      · simp [hu]
      · rw [if_neg hu]; exact h2 u
    · intro u s; simp only [upd]; by_cases hu : u = t
      · simp [hu]
      · rw [if_neg hu]; exact h3 u s
    · intro u s hus
      have := h4 u s hus
      have hu : u ≠ t := by rintro rfl; grind
      simp only [upd, hu, if_false]; exact this
    · exact h5

theorem loc_exec {k : Nat} {c : Cfg S E G} (h : Exec P n g k c) : Loc P n c := by
  induction h with
  | nil => constructor <;> simp [Cfg.initial, Pc.local?, mine]
  | snoc h ht st ih => exact loc_step ht (own_exec h) ih st

/-! ### Exceptions and the mutex -/

/-- In the exception handler. -/
def Pc.caught? : Pc S E → Option E
  | .wantCatch e | .inCatch e => some e
  | _ => none

/-- `e` was thrown by a body on an element of the range or by a merge. -/
def Thrown (P : Params S E G) (e : E) : Prop :=
  (∃ i s, i < P.size ∧ P.body i s = .error e) ∨ (P.hasPost = true ∧ ∃ g s, (P.post g s).2 = some e)

structure Exc (P : Params S E G) (n : Nat) (c : Cfg S E G) : Prop where
  src : ∀ e ∈ c.thrown, Thrown P e
  exc : ∀ e, c.exc = some e → e ∈ c.thrown
  caught : ∀ t e, (c.pc t).caught? = some e → e ∈ c.thrown
  pending : c.thrown ≠ [] → c.exc ≠ none ∨ ∃ t e, t < n ∧ (c.pc t).caught? = some e
  done : ∀ t, c.pc t = .done → c.exc ≠ none ∨ (P.size ≤ c.next ∧ (P.hasPost = true → t ∈ c.merged.map Prod.fst))

theorem exc_step {c c' : Cfg S E G} {t : Nat} (ht : t < n) (ho : Own P n c) (hl : Loc P n c) (h : Exc P n c)
    (st : Step P t c c') : Exc P n c' := by
  obtain ⟨h1, h2, h3, h4, h5⟩ := h
  have keep : ∀ v : Pc S E, (c.pc t).caught? = none → c.thrown ≠ [] → c.exc ≠ none ∨
      ∃ u e, u < n ∧ (upd c.pc t v u).caught? = some e := by
    intro v hv hth
    rcases h4 hth with h | ⟨u, e, hu, he⟩
    · exact Or.inl h
    · right
      refine ⟨u, e, hu, ?_⟩
      have : u ≠ t := by rintro rfl; rw [hv] at he; simp at he
      simp [upd, this, he]
  cases st with
  | start hp =>
    refine ⟨h1, h2, ?_, keep _ (by rw [hp]; rfl), ?_⟩ <;> intro u <;> simp only [upd] <;> by_cases hu : u = t
    · simp [hu, Pc.caught?]
    · rw [if_neg hu]; exact h3 u
    · simp [hu]
    · rw [if_neg hu]; exact h5 u
  | fetch hp hn =>
    refine ⟨h1, h2, ?_, keep _ (by rw [hp]; rfl), ?_⟩ <;> intro u <;> simp only [upd] <;> by_cases hu : u = t
    · simp [hu, Pc.caught?]
    · rw [if_neg hu]; exact h3 u
    · simp [hu]
    · rw [if_neg hu]; intro h; have := h5 u h
      rcases this with h | h
      · exact Or.inl h
      · exact Or.inr ⟨by omega, h.2⟩
  | stop hp hn =>
    refine ⟨h1, h2, ?_, keep _ (by rw [hp]; rfl), ?_⟩ <;> intro u <;> simp only [upd] <;> by_cases hu : u = t
    · subst hu; rw [if_pos rfl]; cases P.hasPost <;> simp [Pc.caught?]
    · rw [if_neg hu]; exact h3 u
    · subst hu; rw [if_pos rfl]
      cases hpp : P.hasPost
      · simp; right; omega
      · simp
    · rw [if_neg hu]; intro h; have := h5 u h
      rcases this with h | h
      · exact Or.inl h
      · exact Or.inr ⟨by omega, h.2⟩
  | runOk hp hb =>
    refine ⟨h1, h2, ?_, keep _ (by rw [hp]; rfl), ?_⟩ <;> intro u <;> simp only [upd] <;> by_cases hu : u = t
    · simp [hu, Pc.caught?]
    · rw [if_neg hu]; exact h3 u
    · simp [hu]
    · rw [if_neg hu]; exact h5 u
  | @runThrow i s e hp hb =>
    have hi : i < P.size := by
      have := (ho.run t i s hp).1
      have : i < c.owner.length := by
        by_contra hc; rw [List.getElem?_eq_none (by omega)] at this; simp at this
      have := ho.len; omega
    refine ⟨?_, ?_, ?_, ?_, ?_⟩
    · intro e' he'; simp at he'; rcases he' with he' | rfl
      · exact h1 e' he'
      · left; exact ⟨i, s, hi, hb⟩
    · intro e' he'; simp; left; exact h2 e' he'
    · intro u e'; simp only [upd]; by_cases hu : u = t
      · simp [hu, Pc.caught?]; intro h; right; exact h.symm
      · rw [if_neg hu]; intro h; simp; left; exact h3 u e' h
    · intro _; right; exact ⟨t, e, ht, by simp [upd, Pc.caught?]⟩
    · intro u; simp only [upd]; by_cases hu : u = t
      · simp [hu]
      · rw [if_neg hu]; exact h5 u
  | checkGo hp he =>
    refine ⟨h1, h2, ?_, keep _ (by rw [hp]; rfl), ?_⟩ <;> intro u <;> simp only [upd] <;> by_cases hu : u = t
    · simp [hu, Pc.caught?]
    · rw [if_neg hu]; exact h3 u
    · simp [hu]
    · rw [if_neg hu]; exact h5 u
  | checkQuit hp he =>
    refine ⟨h1, h2, ?_, keep _ (by rw [hp]; rfl), ?_⟩ <;> intro u <;> simp only [upd] <;> by_cases hu : u = t
    · simp [hu, Pc.caught?]
    · rw [if_neg hu]; exact h3 u
    · simp [he]
    · simp [he]
  | lockPost hp he =>
    refine ⟨h1, h2, ?_, keep _ (by rw [hp]; rfl), ?_⟩ <;> intro u <;> simp only [upd] <;> by_cases hu : u = t
    · simp [hu, Pc.caught?]
    · rw [if_neg hu]; exact h3 u
    · simp [hu]
    · rw [if_neg hu]; exact h5 u
  | @postOk s0 g' hp hb =>
    have hpost := hl.post t s0 (Or.inr hp)
    refine ⟨h1, h2, ?_, keep _ (by rw [hp]; rfl), ?_⟩ <;> intro u <;> simp only [upd] <;> by_cases hu : u = t
    · simp [hu, Pc.caught?]
    · rw [if_neg hu]; exact h3 u
    · subst hu; simp [hpost.1]
    · rw [if_neg hu]; intro h; rcases h5 u h with h | h
      · exact Or.inl h
      · refine Or.inr ⟨h.1, fun hh => ?_⟩
        have := h.2 hh
        rw [List.map_append, List.mem_append]; exact Or.inl this
  | @postThrow s g' e hp hb =>
    refine ⟨?_, ?_, ?_, ?_, ?_⟩
    · intro e' he'; simp at he'; rcases he' with he' | rfl
      · exact h1 e' he'
      · right; exact ⟨(hl.post t s (Or.inr hp)).2, _, s, by rw [hb]⟩
    · intro e' he'; simp; left; exact h2 e' he'
    · intro u e'; simp only [upd]; by_cases hu : u = t
      · simp [hu, Pc.caught?]; intro h; right; exact h.symm
      · rw [if_neg hu]; intro h; simp; left; exact h3 u e' h
    · intro _; right; exact ⟨t, e, ht, by simp [upd, Pc.caught?]⟩
    · intro u; simp only [upd]; by_cases hu : u = t
      · simp [hu]
      · rw [if_neg hu]; exact h5 u
  | @lockCatch e hp he =>
    refine ⟨h1, h2, ?_, ?_, ?_⟩
    · intro u e'; simp only [upd]; by_cases hu : u = t
      · simp [hu, Pc.caught?]; rintro rfl; exact h3 t e (by rw [hp]; rfl)
      · rw [if_neg hu]; exact h3 u e'
    · intro _; right; exact ⟨t, e, ht, by simp [upd, Pc.caught?]⟩
    · intro u; simp only [upd]; by_cases hu : u = t
      · simp [hu]
      · rw [if_neg hu]; exact h5 u
  | @setExc e hp =>
    refine ⟨h1, ?_, ?_, ?_, ?_⟩
    · intro e' he'
      simp at he'
      cases hx : c.exc with
      | none => rw [hx] at he'; simp at he'; subst he'; exact h3 t e (by rw [hp]; rfl)
      | some e2 => rw [hx] at he'; simp at he'; subst he'; exact h2 _ hx
    · intro u e'; simp only [upd]; by_cases hu : u = t
      · simp [hu, Pc.caught?]
      · rw [if_neg hu]; exact h3 u e'
    · intro _; left; simp
    · intro u _; left; simp

theorem exc_exec {k : Nat} {c : Cfg S E G} (h : Exec P n g k c) : Exc P n c := by
  induction h with
  | nil => constructor <;> simp [Cfg.initial, Pc.caught?]
  | snoc h ht st ih => exact exc_step ht (own_exec h) (loc_exec h) ih st

/-- Holding the mutex. -/
def Pc.holds : Pc S E → Bool
  | .inPost _ | .inCatch _ => true
  | _ => false

structure Lock (n : Nat) (c : Cfg S E G) : Prop where
  held : ∀ t, c.lock = some t → (c.pc t).holds = true ∧ t < n
  holder : ∀ t, (c.pc t).holds = true → c.lock = some t

theorem lock_step {c c' : Cfg S E G} {t : Nat} (ht : t < n) (h : Lock n c) (st : Step P t c c') : Lock n c' := by
  obtain ⟨h1, h2⟩ := h
  have rel : (c.pc t).holds = true → ∀ v : Pc S E, v.holds = false → ∀ u, (upd c.pc t v u).holds = true → False := by
    intro ht v hv u hu
    unfold upd at hu
    split at hu
    · rw [hv] at hu; simp at hu
    · rename_i hne
      have a := h2 t ht; have b := h2 u hu; rw [a] at b; simp at b; exact hne b.symm
  have keep : (c.pc t).holds = false → ∀ v : Pc S E, v.holds = false →
      (∀ u, c.lock = some u → (upd c.pc t v u).holds = true ∧ u < n) ∧
      (∀ u, (upd c.pc t v u).holds = true → c.lock = some u) := by
    intro ht v hv
    refine ⟨?_, ?_⟩
    · intro u hu
      have hut : u ≠ t := by rintro rfl; have := (h1 u hu).1; rw [ht] at this; simp at this
      simpa [upd, hut] using h1 u hu
    · intro u hu
      unfold upd at hu
      split at hu
      · rw [hv] at hu; simp at hu
      · exact h2 u hu
  cases st with
  | start hp => exact ⟨(keep (by rw [hp]; rfl) _ rfl).1, (keep (by rw [hp]; rfl) _ rfl).2⟩
  | fetch hp hn => exact ⟨(keep (by rw [hp]; rfl) _ rfl).1, (keep (by rw [hp]; rfl) _ rfl).2⟩
  | @stop s hp hn =>
    have hv : (if P.hasPost then Pc.wantPost s else Pc.done : Pc S E).holds = false := by cases P.hasPost <;> rfl
    exact ⟨(keep (by rw [hp]; rfl) _ hv).1, (keep (by rw [hp]; rfl) _ hv).2⟩
  | runOk hp hb => exact ⟨(keep (by rw [hp]; rfl) _ rfl).1, (keep (by rw [hp]; rfl) _ rfl).2⟩
  | runThrow hp hb => exact ⟨(keep (by rw [hp]; rfl) _ rfl).1, (keep (by rw [hp]; rfl) _ rfl).2⟩
  | checkGo hp hb => exact ⟨(keep (by rw [hp]; rfl) _ rfl).1, (keep (by rw [hp]; rfl) _ rfl).2⟩
  | checkQuit hp hb => exact ⟨(keep (by rw [hp]; rfl) _ rfl).1, (keep (by rw [hp]; rfl) _ rfl).2⟩
  | lockPost hp hb =>
    constructor
    · intro u hu; simp at hu; subst hu; exact ⟨by simp [upd, Pc.holds], ht⟩
    · intro u; simp only [upd]; split
      · rename_i h; intro _; simp [h]
      · intro h; have := h2 u h; rw [hb] at this; simp at this
  | lockCatch hp hb =>
    constructor
    · intro u hu; simp at hu; subst hu; exact ⟨by simp [upd, Pc.holds], ht⟩
    · intro u; simp only [upd]; split
      · rename_i h; intro _; simp [h]
      · intro h; have := h2 u h; rw [hb] at this; simp at this
  | postOk hp hb =>
    exact ⟨by simp, fun u hu => (rel (by rw [hp]; rfl) _ rfl u hu).elim⟩
  | postThrow hp hb =>
    exact ⟨by simp, fun u hu => (rel (by rw [hp]; rfl) _ rfl u hu).elim⟩
  | setExc hp =>
    exact ⟨by simp, fun u hu => (rel (by rw [hp]; rfl) _ rfl u hu).elim⟩

theorem lock_exec {k : Nat} {c : Cfg S E G} (h : Exec P n g k c) : Lock n c := by
  induction h with
  | nil => constructor <;> simp [Cfg.initial, Pc.holds]
  | snoc h ht st ih => exact lock_step ht ih st

/-! ### Progress and termination -/

theorem progress {k : Nat} {c : Cfg S E G} (h : Exec P n g k c) (hnd : ¬ AllDone n c) : ∃ t c', t < n ∧ Step P t c c' := by
  have hlock := lock_exec h
  have hex : ∃ t, t < n ∧ c.pc t ≠ .done := by
    unfold AllDone at hnd; push Not at hnd; exact hnd
  -- a thread that holds the mutex can move; otherwise any unfinished thread can
  by_cases hl : ∃ t, c.lock = some t
  · obtain ⟨t, hl⟩ := hl
    have := hlock.held t hl
    cases hp : c.pc t with
    | inPost s =>
      rcases hpost : P.post c.acc s with ⟨g', _ | e⟩
      · exact ⟨t, _, this.2, .postOk hp hpost⟩
      · exact ⟨t, _, this.2, .postThrow hp hpost⟩
    | inCatch e => exact ⟨t, _, this.2, .setExc hp⟩
    | _ => rw [hp] at this; simp [Pc.holds] at this
  · have hl : c.lock = none := by
      cases hc : c.lock with
      | none => rfl
      | some t => exact absurd ⟨t, hc⟩ hl
    obtain ⟨t, ht, hp'⟩ := hex
    cases hp : c.pc t with
    | start => exact ⟨t, _, ht, .start hp⟩
    | fetch s =>
      by_cases hn : c.next < P.size
      · exact ⟨t, _, ht, .fetch hp hn⟩
      · exact ⟨t, _, ht, .stop hp (by omega)⟩
    | run i s =>
      cases hb : P.body i s with
      | ok s' => exact ⟨t, _, ht, .runOk hp hb⟩
      | error e => exact ⟨t, _, ht, .runThrow hp hb⟩
    | check s =>
      cases hx : c.exc with
      | none => exact ⟨t, _, ht, .checkGo hp hx⟩
      | some e => exact ⟨t, _, ht, .checkQuit hp hx⟩
    | wantPost s => exact ⟨t, _, ht, .lockPost hp hl⟩
    | inPost s =>
      rcases hpost : P.post c.acc s with ⟨g', _ | e⟩
      · exact ⟨t, _, ht, .postOk hp hpost⟩
      · exact ⟨t, _, ht, .postThrow hp hpost⟩
    | wantCatch e => exact ⟨t, _, ht, .lockCatch hp hl⟩
    | inCatch e => exact ⟨t, _, ht, .setExc hp⟩
    | done => exact absurd hp hp'

/-- Steps a thread may still take without drawing another index. -/
def Pc.weight : Pc S E → Nat
  | .done => 0
  | .inCatch _ => 1
  | .wantCatch _ => 2
  | .inPost _ => 3
  | .wantPost _ => 4
  | .fetch _ => 5
  | .check _ => 6
  | .start => 6
  | .run _ _ => 7

def total (n : Nat) (f : Nat → Nat) : Nat := ((List.range n).map f).sum

theorem total_upd {n t : Nat} (ht : t < n) (f : Nat → Pc S E) (v : Pc S E) :
    total n (fun u => (upd f t v u).weight) + (f t).weight = total n (fun u => (f u).weight) + v.weight := by
  unfold total
  induction n with
  | zero => omega
  | succ n ih =>
    simp only [List.range_succ, List.map_append, List.sum_append, List.map_cons, List.map_nil, List.sum_cons,
      List.sum_nil]
    by_cases htn : t = n
    · subst htn
      have : (List.range t).map (fun u => (upd f t v u).weight) = (List.range t).map (fun u => (f u).weight) := by
        apply List.map_congr_left; intro u hu; rw [List.mem_range] at hu
        have : u ≠ t := by omega
        simp [upd, this]
      rw [this]; simp [upd]; omega
    · have := ih (by omega)
      have hn : upd f t v n = f n := by simp [upd, Ne.symm htn]
      rw [hn]; omega

def measure (P : Params S E G) (n : Nat) (c : Cfg S E G) : Nat :=
  3 * (P.size - c.next) + total n (fun u => (c.pc u).weight)

theorem measure_step {c c' : Cfg S E G} {t : Nat} (ht : t < n) (st : Step P t c c') : measure P n c' < measure P n c := by
  unfold measure
  cases st with
  | @stop s hp hn =>
    have := total_upd ht c.pc (if P.hasPost then Pc.wantPost s else Pc.done)
    rw [hp] at this
    have hv : (if P.hasPost then Pc.wantPost s else Pc.done : Pc S E).weight ≤ 4 := by cases P.hasPost <;> simp [Pc.weight]
    have hw : (Pc.fetch s : Pc S E).weight = 5 := rfl
    rw [hw] at this
    show 3 * (P.size - (c.next + 1)) + total n (fun u => (upd c.pc t _ u).weight) < _
    omega
  | start hp => have := total_upd ht c.pc (.fetch P.init); rw [hp] at this; simp only [Pc.weight] at this ⊢; omega
  | @fetch s hp hn => have := total_upd ht c.pc (.run c.next s); rw [hp] at this; simp only [Pc.weight] at this ⊢; omega
  | @runOk i s s' hp => have := total_upd ht c.pc (.check s'); rw [hp] at this; simp only [Pc.weight] at this ⊢; omega
  | @runThrow i s e hp => have := total_upd ht c.pc (.wantCatch e); rw [hp] at this; simp only [Pc.weight] at this ⊢; omega
  | @checkGo s hp => have := total_upd ht c.pc (.fetch s); rw [hp] at this; simp only [Pc.weight] at this ⊢; omega
  | @checkQuit s e hp => have := total_upd ht c.pc (.done); rw [hp] at this; simp only [Pc.weight] at this ⊢; omega
  | @lockPost s hp => have := total_upd ht c.pc (.inPost s); rw [hp] at this; simp only [Pc.weight] at this ⊢; omega
  | @postOk s g' hp => have := total_upd ht c.pc (.done); rw [hp] at this; simp only [Pc.weight] at this ⊢; omega
  | @postThrow s g' e hp => have := total_upd ht c.pc (.wantCatch e); rw [hp] at this; simp only [Pc.weight] at this ⊢; omega
  | @lockCatch e hp => have := total_upd ht c.pc (.inCatch e); rw [hp] at this; simp only [Pc.weight] at this ⊢; omega
  | @setExc e hp => have := total_upd ht c.pc (.done); rw [hp] at this; simp only [Pc.weight] at this ⊢; omega

theorem measure_exec {k : Nat} {c : Cfg S E G} (h : Exec P n g k c) : k + measure P n c ≤ 3 * P.size + 6 * n := by
  induction h with
  | nil =>
    have : ∀ n, total n (fun _ => (Pc.start : Pc S E).weight) = 6 * n := by
      intro n; unfold total; induction n with
      | zero => rfl
      | succ n ih => rw [List.range_succ, List.map_append, List.sum_append, ih]; simp [Pc.weight]; omega
    unfold measure; simp only [Cfg.initial]; rw [this]; omega
  | snoc h ht st ih => have := measure_step ht st; omega

theorem exec_complete {k : Nat} {c : Cfg S E G} (h : Exec P n g k c) : ∃ k' c', Exec P n g k' c' ∧ AllDone n c' := by
  generalize hm : measure P n c = m
  induction m using Nat.strongRecOn generalizing k c with
  | _ m ih =>
    by_cases hd : AllDone n c
    · exact ⟨k, c, h, hd⟩
    · obtain ⟨t, c', ht, st⟩ := progress h hd
      have := measure_step ht st
      exact ih (measure P n c') (by omega) (.snoc h ht st) rfl

/-! ### The merge target -/

theorem acc_exec (hpost : ∀ g s, (P.post g s).2 = none) {k : Nat} {c : Cfg S E G} (h : Exec P n g k c) :
    c.acc = c.merged.foldl (fun g m => (P.post g m.2).1) g := by
  induction h with
  | nil => rfl
  | snoc h ht st ih =>
    cases st with
    | postOk hp hb => simp [List.foldl_append, ← ih, hb]
    | postThrow hp hb => have := hpost _ _ |>.symm.trans (congrArg Prod.snd hb); simp at this
    | _ => exact ih

/-- The final state of an execution in which nothing was thrown. -/
structure Final (P : Params S E G) (n : Nat) (g : G) (c : Cfg S E G) : Prop where
  perm : c.log.Perm (List.range P.size)
  mperm : P.hasPost = true → (c.merged.map Prod.fst).Perm (List.range n)
  states : ∀ t s, (t, s) ∈ c.merged → bodies P (mine c t) P.init = .ok s
  owned : ∀ i, i < P.size → ∃ t, t < n ∧ c.owner[i]? = some t

theorem final_of_no_exc {k : Nat} {c : Cfg S E G} (h : Exec P n g k c) (hn : 0 < n) (hd : AllDone n c) (hx : c.exc = none) :
    c.thrown = [] ∧ Final P n g c := by
  have ho := own_exec h
  have hl := loc_exec h
  have he := exc_exec h
  have hth : c.thrown = [] := by
    by_contra hne
    rcases he.pending hne with h | ⟨t, e, ht, hc⟩
    · exact h hx
    · rw [hd t ht] at hc; simp [Pc.caught?] at hc
  have hdone : ∀ t, t < n → P.size ≤ c.next ∧ (P.hasPost = true → t ∈ c.merged.map Prod.fst) := by
    intro t ht
    rcases he.done t (hd t ht) with h | h
    · exact absurd hx h
    · exact h
  have hlen : c.owner.length = P.size := by rw [ho.len]; have := (hdone 0 hn).1; omega
  refine ⟨hth, ?_, ?_, ?_, ?_⟩
  · rw [List.perm_ext_iff_of_nodup ho.nodup List.nodup_range]
    intro i
    rw [List.mem_range]
    constructor
    · intro hi; have := ho.logLt i hi; omega
    · intro hi
      rcases ho.cover i (by omega) with h | ⟨t, s, ht, hp⟩
      · exact h
      · rw [hd t ht] at hp; simp at hp
  · intro hpost
    rw [List.perm_ext_iff_of_nodup hl.mnodup List.nodup_range]
    intro t
    rw [List.mem_range]
    constructor
    · intro ht; rw [List.mem_map] at ht; obtain ⟨⟨t, s⟩, hts, rfl⟩ := ht; exact (hl.merged t s hts).2.2.2
    · intro ht; exact (hdone t ht).2 hpost
  · intro t s hts; exact (hl.merged t s hts).2.1
  · intro i hi
    have : c.owner[i]? = some c.owner[i] := List.getElem?_eq_getElem (by omega)
    exact ⟨_, ho.lt i _ this, this⟩

end Kigumi.ParallelDo
