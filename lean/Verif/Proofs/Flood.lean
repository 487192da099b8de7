import Verif.Model.Flood
import Verif.Spec.Flood
import Verif.Tactics

/-! Helper lemmas for floods. -/
namespace Kigumi.Flood
open Kigumi Spec

theorem set_same {α : Type} (f : Nat → α) (i : Nat) (x : α) : set f i x i = x := by simp [set]
theorem set_other {α : Type} (f : Nat → α) {i j : Nat} (x : α) (h : j ≠ i) : set f i x j = f j := by simp [set, h]

abbrev Rel (P : Params) : Nat → Nat → Prop := fun f g => g ∈ P.nbr f

/-- Hypotheses on seeds. -/
structure Seeds (P : Params) (R : List Nat) (tags0 : Nat → Tag) : Prop where
  tag : ∀ r ∈ R, P.tag r ≠ .unknown
  seed : ∀ r ∈ R, tags0 r = .unknown ∨ tags0 r = P.tag r
  disj : ∀ r ∈ R, ∀ r' ∈ R, ∀ g, Reach (Rel P) tags0 r g → Reach (Rel P) tags0 r' g → r = r'

/-- `f` has been given its tag by activity `r` (or is its seed). -/
def Marked (P : Params) (tags0 : Nat → Tag) (c : Cfg) (r f : Nat) : Prop :=
  c.phase r ≠ .ready ∧ (f = r ∨ (tags0 f = .unknown ∧ Reach (Rel P) tags0 r f ∧ c.tags f ≠ .unknown))

structure Inv (P : Params) (R : List Nat) (tags0 : Nat → Tag) (c : Cfg) : Prop where
  val : ∀ g, (c.tags g = tags0 g) ∨ ∃ r ∈ R, c.phase r ≠ .ready ∧ Reach (Rel P) tags0 r g ∧ (g = r ∨ tags0 g = .unknown) ∧ c.tags g = P.tag r
  seed : ∀ r ∈ R, c.phase r ≠ .ready → c.tags r = P.tag r
  que : ∀ r ∈ R, ∀ p q, c.phase r = .running p q → (∀ f ∈ q, Marked P tags0 c r f) ∧ (∀ g ∈ p, ∃ f, Reach (Rel P) tags0 r f ∧ g ∈ P.nbr f)
  closed : ∀ r ∈ R, ∀ f, Marked P tags0 c r f →
    (∃ p q, c.phase r = .running p q ∧ f ∈ q) ∨
    ∀ g ∈ P.nbr f, (∃ p q, c.phase r = .running p q ∧ g ∈ p) ∨ c.tags g = P.tag r ∨ (c.warn r = true ∧ c.tags g ≠ .unknown)
  warn : ∀ r ∈ R, c.warn r = true → ∃ f g, Reach (Rel P) tags0 r f ∧ g ∈ P.nbr f ∧ c.tags g ≠ .unknown ∧ c.tags g ≠ P.tag r

theorem Marked.reach {P : Params} {tags0 : Nat → Tag} {c : Cfg} {r f : Nat} (h : Marked P tags0 c r f) : Reach (Rel P) tags0 r f := by
  rcases h.2 with rfl | h
  · exact .seed
  · exact h.2.1

/-- Tags, once given, never change. -/
theorem mono_step {P : Params} {R : List Nat} {tags0 : Nat → Tag} {c c' : Cfg} {r : Nat} (hs : Seeds P R tags0) (hi : Inv P R tags0 c)
    (hr : r ∈ R) (st : Step P r c c') (g : Nat) (hg : c.tags g ≠ .unknown) : c'.tags g = c.tags g := by
  cases st with
  | start h =>
    by_cases hgr : g = r
    · subst hgr
      simp only [set_same]
      rcases hi.val g with h1 | ⟨r', hr', h2, h3, -, h5⟩
      · rcases hs.seed g hr with h0 | h0
        · rw [h1, h0] at hg; simp at hg
        · rw [h1, h0]
      · have := hs.disj g hr r' hr' g .seed h3
        subst this; exact h5.symm
    · simp [set_other _ _ hgr]
  | spread h1 h2 =>
    rename_i g' p q
    by_cases hgg : g = g'
    · subst hgg; exact absurd h2 hg
    · simp [set_other _ _ hgg]
  | pop h => rfl
  | differ => rfl
  | same => rfl
  | finish => rfl

theorem marked_mono {P : Params} {R : List Nat} {tags0 : Nat → Tag} {c c' : Cfg} {r : Nat} (hs : Seeds P R tags0) (hi : Inv P R tags0 c)
    (hr : r ∈ R) (st : Step P r c c') {r' f : Nat} (h : Marked P tags0 c r' f) : Marked P tags0 c' r' f := by
  refine ⟨?_, ?_⟩
  · by_cases hrr : r' = r
    · subst hrr; cases st <;> simp [set_same]
    · have : c'.phase r' = c.phase r' := by cases st <;> simp [set_other _ _ hrr]
      rw [this]; exact h.1
  · rcases h.2 with h | ⟨h1, h2, h3⟩
    · exact Or.inl h
    · exact Or.inr ⟨h1, h2, by rw [mono_step hs hi hr st f h3]; exact h3⟩

/-- A face newly marked in a step is the seed or the neighbour just tagged. -/
theorem marked_new {P : Params} {R : List Nat} {tags0 : Nat → Tag} {c c' : Cfg} {r : Nat} (hs : Seeds P R tags0) (hi : Inv P R tags0 c)
    (hr : r ∈ R) (st : Step P r c c') {r' f : Nat} (hr' : r' ∈ R) (h : Marked P tags0 c' r' f) :
    Marked P tags0 c r' f ∨ (r' = r ∧ ∃ p q, c'.phase r = .running p q ∧ f ∈ q) := by
  by_cases hold : Marked P tags0 c r' f
  · exact Or.inl hold
  right
  cases st with
  | start h0 =>
    by_cases hrr : r' = r
    · subst hrr
      refine ⟨rfl, [], [r'], by simp [set_same], ?_⟩
      rcases h.2 with rfl | ⟨h1, h2, h3⟩
      · simp
      · by_cases hfr : f = r'
        · simp [hfr]
        · exfalso
          simp only [set_other _ _ hfr] at h3
          rcases hi.val f with hv | ⟨r'', hr'', a, b, -, -⟩
          · rw [hv] at h3; exact h3 h1
          · have := hs.disj r' hr r'' hr'' f h2 b
            subst this; exact a h0
    · exfalso
      apply hold
      refine ⟨by have := h.1; simpa [set_other _ _ hrr] using this, ?_⟩
      rcases h.2 with rfl | ⟨h1, h2, h3⟩
      · exact Or.inl rfl
      · by_cases hfr : f = r
        · subst hfr
          exact absurd (hs.disj r' hr' f hr f h2 .seed) hrr
        · exact Or.inr ⟨h1, h2, by simpa [set_other _ _ hfr] using h3⟩
  | pop h0 =>
    exfalso; apply hold
    refine ⟨?_, h.2⟩
    have := h.1
    by_cases hrr : r' = r
    · subst hrr; rw [h0]; simp
    · simpa [set_other _ _ hrr] using this
  | differ h0 =>
    exfalso; apply hold
    refine ⟨?_, h.2⟩
    have := h.1
    by_cases hrr : r' = r
    · subst hrr; rw [h0]; simp
    · simpa [set_other _ _ hrr] using this
  | same h0 =>
    exfalso; apply hold
    refine ⟨?_, h.2⟩
    have := h.1
    by_cases hrr : r' = r
    · subst hrr; rw [h0]; simp
    · simpa [set_other _ _ hrr] using this
  | finish h0 =>
    exfalso; apply hold
    refine ⟨?_, h.2⟩
    have := h.1
    by_cases hrr : r' = r
    · subst hrr; rw [h0]; simp
    · simpa [set_other _ _ hrr] using this
  | spread h0 hu =>
    rename_i g p q
    have hph : c.phase r' ≠ .ready := by
      have := h.1
      by_cases hrr : r' = r
      · subst hrr; rw [h0]; simp
      · simpa [set_other _ _ hrr] using this
    rcases h.2 with rfl | ⟨h1, h2, h3⟩
    · exact absurd ⟨hph, Or.inl rfl⟩ hold
    · by_cases hfg : f = g
      · subst hfg
        -- `f` is reached by `r`
        obtain ⟨f', hf', hn⟩ := (hi.que r hr _ _ h0).2 f (by simp)
        have hreach : Reach (Rel P) tags0 r f := .step hf' hn h1
        have := hs.disj r' hr' r hr f h2 hreach
        subst this
        exact ⟨rfl, p, q ++ [f], by simp [set_same], by simp⟩
      · exact absurd ⟨hph, Or.inr ⟨h1, h2, by simpa [set_other _ _ hfg] using h3⟩⟩ hold

theorem val_unknown0 {P : Params} {R : List Nat} {tags0 : Nat → Tag} {c : Cfg} (hs : Seeds P R tags0) (hi : Inv P R tags0 c) {g : Nat}
    (h : c.tags g = .unknown) : tags0 g = .unknown := by
  rcases hi.val g with h1 | ⟨r, hr, -, -, -, h5⟩
  · rw [← h1]; exact h
  · rw [h] at h5; exact absurd h5.symm (hs.tag r hr)

theorem Inv.step {P : Params} {R : List Nat} {tags0 : Nat → Tag} {c c' : Cfg} {r : Nat} (hs : Seeds P R tags0) (hi : Inv P R tags0 c)
    (hr : r ∈ R) (st : Step P r c c') : Inv P R tags0 c' := by
  have hmono := fun g hg => mono_step hs hi hr st g hg
  have hphase : ∀ r', r' ≠ r → c'.phase r' = c.phase r' := by
    intro r' hrr; cases st <;> simp [set_other _ _ hrr]
  have hready : ∀ r', c.phase r' ≠ .ready → c'.phase r' ≠ .ready := by
    intro r' h
    by_cases hrr : r' = r
    · subst hrr; cases st <;> simp [set_same]
    · rw [hphase r' hrr]; exact h
  have hstarted : c'.phase r ≠ .ready := by cases st <;> simp [set_same]
  have hwarn : ∀ r', c.warn r' = true → c'.warn r' = true := by
    intro r' h
    cases st with
    | differ =>
      by_cases hrr : r' = r
      · subst hrr; simp [set_same]
      · simpa [set_other _ _ hrr] using h
    | _ => exact h
  refine ⟨?_, ?_, ?_, ?_, ?_⟩
  · -- val
    intro g
    by_cases hchg : c'.tags g = c.tags g
    · rw [hchg]
      rcases hi.val g with h1 | ⟨r', hr', h2, h3, h4, h5⟩
      · exact Or.inl h1
      · exact Or.inr ⟨r', hr', hready r' h2, h3, h4, h5⟩
    · right
      cases st with
      | start h0 =>
        have hgr : g = r := by
          by_contra hne; apply hchg; simp [set_other _ _ hne]
        subst hgr
        exact ⟨g, hr, hstarted, .seed, Or.inl rfl, by simp [set_same]⟩
      | spread h0 hu =>
        rename_i g' p q
        have hgg : g = g' := by
          by_contra hne; apply hchg; simp [set_other _ _ hne]
        subst hgg
        have h1 := val_unknown0 hs hi hu
        obtain ⟨f', hf', hn⟩ := (hi.que r hr _ _ h0).2 g (by simp)
        exact ⟨r, hr, hstarted, .step hf' hn h1, Or.inr h1, by simp [set_same]⟩
      | pop => exact absurd rfl hchg
      | differ => exact absurd rfl hchg
      | same => exact absurd rfl hchg
      | finish => exact absurd rfl hchg
  · -- seed
    intro r' hr' hph
    by_cases hrr : r' = r
    · subst hrr
      cases st with
      | start h0 => simp [set_same]
      | spread h0 hu =>
        have := hi.seed r' hr (by rw [h0]; simp)
        rw [hmono r' (by rw [this]; exact hs.tag r' hr)]; exact this
      | pop h0 => exact hi.seed r' hr (by rw [h0]; simp)
      | differ h0 => exact hi.seed r' hr (by rw [h0]; simp)
      | same h0 => exact hi.seed r' hr (by rw [h0]; simp)
      | finish h0 => exact hi.seed r' hr (by rw [h0]; simp)
    · have := hi.seed r' hr' (by rw [← hphase r' hrr]; exact hph)
      rw [hmono r' (by rw [this]; exact hs.tag r' hr')]; exact this
  · -- que
    intro r' hr' p q hph
    by_cases hrr : r' = r
    · subst hrr
      cases st with
      | start h0 =>
        simp only [set_same, Phase.running.injEq] at hph
        obtain ⟨rfl, rfl⟩ := hph
        refine ⟨?_, by simp⟩
        intro f hf; simp at hf; subst hf
        exact ⟨by simp [set_same], Or.inl rfl⟩
      | pop h0 =>
        rename_i f0 q0
        simp only [set_same, Phase.running.injEq] at hph
        obtain ⟨rfl, rfl⟩ := hph
        obtain ⟨h1, h2⟩ := hi.que r' hr _ _ h0
        refine ⟨fun f hf => ?_, ?_⟩
        · have := h1 f (by simp [hf])
          exact ⟨by simp [set_same], this.2⟩
        · intro g hg; exact ⟨f0, (h1 f0 (by simp)).reach, hg⟩
      | spread h0 hu =>
        rename_i g p0 q0
        simp only [set_same, Phase.running.injEq] at hph
        obtain ⟨rfl, rfl⟩ := hph
        obtain ⟨h1, h2⟩ := hi.que r' hr _ _ h0
        refine ⟨?_, fun g' hg' => h2 g' (by simp [hg'])⟩
        intro f hf
        rcases List.mem_append.1 hf with hf | hf
        · exact marked_mono hs hi hr (.spread h0 hu) (h1 f hf)
        · simp at hf; subst hf
          obtain ⟨f', hf', hn⟩ := h2 f (by simp)
          have h0u := val_unknown0 hs hi hu
          exact ⟨by simp [set_same], Or.inr ⟨h0u, .step hf' hn h0u, by simp [set_same]; exact hs.tag r' hr⟩⟩
      | differ h0 =>
        rename_i g p0 q0 _ _
        simp only [set_same, Phase.running.injEq] at hph
        obtain ⟨rfl, rfl⟩ := hph
        obtain ⟨h1, h2⟩ := hi.que r' hr _ _ h0
        refine ⟨fun f hf => ⟨by simp [set_same], (h1 f hf).2⟩, fun g' hg' => h2 g' (by simp [hg'])⟩
      | same h0 =>
        rename_i g p0 q0 _ _
        simp only [set_same, Phase.running.injEq] at hph
        obtain ⟨rfl, rfl⟩ := hph
        obtain ⟨h1, h2⟩ := hi.que r' hr _ _ h0
        refine ⟨fun f hf => ⟨by simp [set_same], (h1 f hf).2⟩, fun g' hg' => h2 g' (by simp [hg'])⟩
      | finish h0 => simp [set_same] at hph
    · rw [hphase r' hrr] at hph
      obtain ⟨h1, h2⟩ := hi.que r' hr' _ _ hph
      exact ⟨fun f hf => marked_mono hs hi hr st (h1 f hf), h2⟩
  · -- closed
    intro r' hr' f hm
    rcases marked_new hs hi hr st hr' hm with hold | ⟨rfl, h⟩
    swap
    · exact Or.inl h
    rcases hi.closed r' hr' f hold with ⟨p, q, hph, hf⟩ | hcl
    · -- was in the queue
      by_cases hrr : r' = r
      · subst hrr
        cases st with
        | start h0 => rw [h0] at hph; simp at hph
        | pop h0 =>
          rename_i f0 q0
          rw [h0] at hph; simp only [Phase.running.injEq] at hph
          obtain ⟨rfl, rfl⟩ := hph
          rcases List.mem_cons.1 hf with rfl | hf
          · right
            intro g hg
            exact Or.inl ⟨_, _, set_same _ _ _, hg⟩
          · exact Or.inl ⟨_, _, set_same _ _ _, hf⟩
        | spread h0 hu =>
          rw [h0] at hph; simp only [Phase.running.injEq] at hph
          obtain ⟨rfl, rfl⟩ := hph
          exact Or.inl ⟨_, _, set_same _ _ _, by simp [hf]⟩
        | differ h0 =>
          rw [h0] at hph; simp only [Phase.running.injEq] at hph
          obtain ⟨rfl, rfl⟩ := hph
          exact Or.inl ⟨_, _, set_same _ _ _, hf⟩
        | same h0 =>
          rw [h0] at hph; simp only [Phase.running.injEq] at hph
          obtain ⟨rfl, rfl⟩ := hph
          exact Or.inl ⟨_, _, set_same _ _ _, hf⟩
        | finish h0 =>
          rw [h0] at hph; simp only [Phase.running.injEq] at hph
          obtain ⟨rfl, rfl⟩ := hph
          simp at hf
      · exact Or.inl ⟨p, q, by rw [hphase r' hrr]; exact hph, hf⟩
    · right
      intro g hg
      rcases hcl g hg with ⟨p, q, hph, hgp⟩ | htag | ⟨hw, hne⟩
      · by_cases hrr : r' = r
        · subst hrr
          cases st with
          | start h0 => rw [h0] at hph; simp at hph
          | pop h0 =>
            rw [h0] at hph; simp only [Phase.running.injEq] at hph
            obtain ⟨rfl, rfl⟩ := hph
            simp at hgp
          | spread h0 hu =>
            rename_i g0 p0 q0
            rw [h0] at hph; simp only [Phase.running.injEq] at hph
            obtain ⟨rfl, rfl⟩ := hph
            rcases List.mem_cons.1 hgp with rfl | hgp
            · right; left; simp [set_same]
            · exact Or.inl ⟨_, _, set_same _ _ _, hgp⟩
          | differ h0 hne1 hne2 =>
            rename_i g0 p0 q0
            rw [h0] at hph; simp only [Phase.running.injEq] at hph
            obtain ⟨rfl, rfl⟩ := hph
            rcases List.mem_cons.1 hgp with rfl | hgp
            · right; right; exact ⟨by simp [set_same], hne1⟩
            · exact Or.inl ⟨_, _, set_same _ _ _, hgp⟩
          | same h0 hne1 heq =>
            rename_i g0 p0 q0
            rw [h0] at hph; simp only [Phase.running.injEq] at hph
            obtain ⟨rfl, rfl⟩ := hph
            rcases List.mem_cons.1 hgp with rfl | hgp
            · right; left; exact heq
            · exact Or.inl ⟨_, _, set_same _ _ _, hgp⟩
          | finish h0 =>
            rw [h0] at hph; simp only [Phase.running.injEq] at hph
            obtain ⟨rfl, rfl⟩ := hph
            simp at hgp
        · exact Or.inl ⟨p, q, by rw [hphase r' hrr]; exact hph, hgp⟩
      · right; left
        rw [hmono g (by rw [htag]; exact hs.tag r' hr')]; exact htag
      · right; right
        exact ⟨hwarn r' hw, by rw [hmono g hne]; exact hne⟩
  · -- warn
    intro r' hr' hw
    by_cases hold : c.warn r' = true
    · obtain ⟨f, g, h1, h2, h3, h4⟩ := hi.warn r' hr' hold
      exact ⟨f, g, h1, h2, by rw [hmono g h3]; exact h3, by rw [hmono g h3]; exact h4⟩
    · cases st with
      | differ h0 hne1 hne2 =>
        rename_i g p q
        have hrr : r' = r := by
          by_contra hne; simp only [set_other _ _ hne] at hw; exact hold hw
        subst hrr
        obtain ⟨f, hf, hn⟩ := (hi.que r' hr _ _ h0).2 g (by simp)
        exact ⟨f, g, hf, hn, hne1, hne2⟩
      | start => exact absurd hw hold
      | pop => exact absurd hw hold
      | spread => exact absurd hw hold
      | same => exact absurd hw hold
      | finish => exact absurd hw hold

theorem Inv.init {P : Params} {R : List Nat} {tags0 : Nat → Tag} : Inv P R tags0 ⟨tags0, fun _ => .ready, fun _ => false⟩ := by
  refine ⟨fun g => Or.inl rfl, ?_, ?_, ?_, ?_⟩
  · intro r _ h; exact absurd rfl h
  · intro r _ p q h; simp at h
  · intro r _ f h; exact absurd rfl h.1
  · intro r _ h; simp at h

theorem Inv.exec {P : Params} {R : List Nat} {tags0 : Nat → Tag} {k : Nat} {c : Cfg} (hs : Seeds P R tags0) (h : Exec P R tags0 k c) :
    Inv P R tags0 c := by
  induction h with
  | init => exact .init
  | step _ hr st ih => exact ih.step hs hr st

/-- The tags after all floods have finished. -/
theorem final_tags {P : Params} {R : List Nat} {tags0 : Nat → Tag} {k : Nat} {c : Cfg} (hs : Seeds P R tags0) (h : Exec P R tags0 k c)
    (hd : AllDone R c) : (∀ r ∈ R, ∀ g, Reach (Rel P) tags0 r g → c.tags g = P.tag r) ∧
      (∀ g, (∀ r ∈ R, ¬ Reach (Rel P) tags0 r g) → c.tags g = tags0 g) ∧
      (∀ r ∈ R, c.warn r = true ↔ ∃ f g, Reach (Rel P) tags0 r f ∧ g ∈ P.nbr f ∧ c.tags g ≠ P.tag r) := by
  have hi := Inv.exec hs h
  have hst : ∀ r ∈ R, c.phase r ≠ .ready := fun r hr => by rw [hd r hr]; simp
  have hcl : ∀ r ∈ R, ∀ f, Marked P tags0 c r f → ∀ g ∈ P.nbr f, c.tags g = P.tag r ∨ (c.warn r = true ∧ c.tags g ≠ .unknown) := by
    intro r hr f hm g hg
    rcases hi.closed r hr f hm with ⟨p, q, hph, -⟩ | hcl
    · rw [hd r hr] at hph; simp at hph
    · rcases hcl g hg with ⟨p, q, hph, -⟩ | h | h
      · rw [hd r hr] at hph; simp at hph
      · exact Or.inl h
      · exact Or.inr h
  have hmark : ∀ r ∈ R, ∀ g, Reach (Rel P) tags0 r g → Marked P tags0 c r g := by
    intro r hr g hg
    induction hg with
    | seed => exact ⟨hst r hr, Or.inl rfl⟩
    | step hf hn h0 ih =>
      refine ⟨hst r hr, Or.inr ⟨h0, .step hf hn h0, ?_⟩⟩
      rcases hcl r hr _ ih _ hn with h | h
      · rw [h]; exact hs.tag r hr
      · exact h.2
  have htag : ∀ r ∈ R, ∀ g, Reach (Rel P) tags0 r g → c.tags g = P.tag r := by
    intro r hr g hg
    rcases (hmark r hr g hg).2 with rfl | ⟨h0, -, h2⟩
    · exact hi.seed _ hr (hst _ hr)
    · rcases hi.val g with hv | ⟨r', hr', -, h3, -, h5⟩
      · rw [hv] at h2; exact absurd h0 h2
      · rw [hs.disj r hr r' hr' g hg h3]; exact h5
  refine ⟨htag, ?_, ?_⟩
  · intro g hg
    rcases hi.val g with hv | ⟨r', hr', -, h3, -, -⟩
    · exact hv
    · exact absurd h3 (hg r' hr')
  · intro r hr
    constructor
    · intro hw
      obtain ⟨f, g, h1, h2, -, h4⟩ := hi.warn r hr hw
      exact ⟨f, g, h1, h2, h4⟩
    · rintro ⟨f, g, h1, h2, h3⟩
      rcases hcl r hr f (hmark r hr f h1) g h2 with h | h
      · exact absurd h h3
      · exact h.1

/-! ### Termination -/

theorem sum_update {R : List Nat} (hn : R.Nodup) {r : Nat} (hr : r ∈ R) (f f' : Nat → Nat) (h : ∀ x, x ≠ r → f' x = f x) :
    (R.map f').sum + f r = (R.map f).sum + f' r := by
  induction R with
  | nil => simp at hr
  | cons x R ih =>
    rw [List.nodup_cons] at hn
    simp only [List.map_cons, List.sum_cons]
    rcases List.mem_cons.1 hr with rfl | hr
    · have : R.map f' = R.map f := List.map_congr_left (fun y hy => h y (by rintro rfl; exact hn.1 hy))
      rw [this]; omega
    · have hx : x ≠ r := by rintro rfl; exact hn.1 hr
      have := ih hn.2 hr
      rw [h x hx]; omega

/-- Unclassified faces. -/
def unk (n : Nat) (tags : Nat → Tag) : Nat := (List.range n).countP (fun i => decide (tags i = .unknown))

theorem unk_le (n : Nat) (tags : Nat → Tag) : unk n tags ≤ n := by
  unfold unk; have := List.countP_le_length (l := List.range n) (p := fun i => decide (tags i = .unknown)); simpa using this

theorem unk_set_le (n : Nat) (tags : Nat → Tag) (g : Nat) {t : Tag} (ht : t ≠ .unknown) : unk n (set tags g t) ≤ unk n tags := by
  unfold unk
  apply List.countP_mono_left
  intro i _ h
  simp only [decide_eq_true_eq] at *
  by_cases hi : i = g
  · subst hi; simp [set_same, ht] at h
  · simpa [set_other _ _ hi] using h

theorem unk_set_lt {n : Nat} {tags : Nat → Tag} {g : Nat} {t : Tag} (ht : t ≠ .unknown) (hg : g < n) (hu : tags g = .unknown) :
    unk n (set tags g t) < unk n tags := by
  induction n with
  | zero => omega
  | succ n ih =>
    have e : ∀ tags : Nat → Tag, unk (n + 1) tags = unk n tags + (if tags n = .unknown then 1 else 0) := by
      intro tags; unfold unk; rw [List.range_succ, List.countP_append, List.countP_cons]; simp
    rw [e, e]
    by_cases hgn : g = n
    · subst hgn
      have := unk_set_le g tags g ht
      simp only [set_same, ht, hu]; simp; omega
    · rw [set_other _ _ (fun h => hgn h.symm)]
      have := ih (by omega)
      omega

def weight (D : Nat) : Phase → Nat
  | .ready => D + 3
  | .running p q => p.length + q.length * (D + 1) + 1
  | .done => 0

def potential (n D : Nat) (R : List Nat) (c : Cfg) : Nat := unk n c.tags * (D + 2) + (R.map (fun r => weight D (c.phase r))).sum

theorem potential_step {P : Params} {n D : Nat} {R : List Nat} (hn : R.Nodup) (htag : ∀ r ∈ R, P.tag r ≠ .unknown)
    (hD : ∀ f, (P.nbr f).length ≤ D)
    {c c' : Cfg} {r : Nat} (hr : r ∈ R) (hp : ∀ p q, c.phase r = .running p q → ∀ g ∈ p, g < n) (st : Step P r c c') :
    potential n D R c' < potential n D R c := by
  have hsum := sum_update hn hr (fun r => weight D (c.phase r)) (fun r => weight D (c'.phase r)) (by
    intro x hx; cases st <;> simp [set_other _ _ hx])
  unfold potential
  cases st with
  | start h =>
    have hu := Nat.mul_le_mul_right (D + 2) (unk_set_le n c.tags r (htag r hr))
    simp only [set_same, h, weight, List.length_nil, List.length_singleton] at hsum ⊢
    omega
  | @pop f q h =>
    have := hD f
    simp only [set_same, h, weight, List.length_nil, List.length_cons, Nat.add_mul] at hsum ⊢
    omega
  | @spread g p q h hu =>
    have h1 := unk_set_lt (htag r hr) (hp _ _ h g (by simp)) hu
    have h2 : (unk n (set c.tags g (P.tag r)) + 1) * (D + 2) ≤ unk n c.tags * (D + 2) := Nat.mul_le_mul_right _ h1
    rw [Nat.add_mul] at h2
    simp only [set_same, h, weight, List.length_append, List.length_cons, List.length_nil, Nat.add_mul] at hsum ⊢
    omega
  | differ h => simp only [set_same, h, weight, List.length_cons] at hsum ⊢; omega
  | same h => simp only [set_same, h, weight, List.length_cons] at hsum ⊢; omega
  | finish h => simp only [set_same, h, weight, List.length_nil] at hsum ⊢; omega

theorem pending_lt {P : Params} {n : Nat} {R : List Nat} {tags0 : Nat → Tag} (hnb : ∀ f, ∀ g ∈ P.nbr f, g < n) {k : Nat} {c : Cfg}
    (h : Exec P R tags0 k c) : ∀ r p q, c.phase r = .running p q → ∀ g ∈ p, g < n := by
  induction h with
  | init => intro r p q h; simp at h
  | @step k c c' r0 _ hr st ih =>
    intro r p q hph g hg
    by_cases hrr : r = r0
    · subst hrr
      cases st with
      | start h0 => simp only [set_same, Phase.running.injEq] at hph; obtain ⟨rfl, rfl⟩ := hph; simp at hg
      | pop h0 => simp only [set_same, Phase.running.injEq] at hph; obtain ⟨rfl, rfl⟩ := hph; exact hnb _ g hg
      | spread h0 => simp only [set_same, Phase.running.injEq] at hph; obtain ⟨rfl, rfl⟩ := hph; exact ih _ _ _ h0 g (by simp [hg])
      | differ h0 => simp only [set_same, Phase.running.injEq] at hph; obtain ⟨rfl, rfl⟩ := hph; exact ih _ _ _ h0 g (by simp [hg])
      | same h0 => simp only [set_same, Phase.running.injEq] at hph; obtain ⟨rfl, rfl⟩ := hph; exact ih _ _ _ h0 g (by simp [hg])
      | finish h0 => simp [set_same] at hph
    · have : c'.phase r = c.phase r := by cases st <;> simp [set_other _ _ hrr]
      rw [this] at hph
      exact ih r p q hph g hg

theorem bounded {P : Params} {n D : Nat} {R : List Nat} {tags0 : Nat → Tag} (hn : R.Nodup) (htag : ∀ r ∈ R, P.tag r ≠ .unknown)
    (hnb : ∀ f, ∀ g ∈ P.nbr f, g < n) (hD : ∀ f, (P.nbr f).length ≤ D) {k : Nat} {c : Cfg} (h : Exec P R tags0 k c) :
    k + potential n D R c ≤ potential n D R ⟨tags0, fun _ => .ready, fun _ => false⟩ := by
  induction h with
  | init => omega
  | step hex hr st ih =>
    have := potential_step hn htag hD hr (pending_lt hnb hex _) st
    omega

theorem progress {P : Params} {R : List Nat} {c : Cfg} (h : ¬ AllDone R c) : ∃ r ∈ R, ∃ c', Step P r c c' := by
  unfold AllDone at h
  push Not at h
  obtain ⟨r, hr, hne⟩ := h
  refine ⟨r, hr, ?_⟩
  cases hph : c.phase r with
  | ready => exact ⟨_, .start hph⟩
  | done => exact absurd hph hne
  | running p q =>
    cases p with
    | nil =>
      cases q with
      | nil => exact ⟨_, .finish hph⟩
      | cons f q => exact ⟨_, .pop hph⟩
    | cons g p =>
      by_cases hu : c.tags g = .unknown
      · exact ⟨_, .spread hph hu⟩
      · by_cases ht : c.tags g = P.tag r
        · exact ⟨_, .same hph hu ht⟩
        · exact ⟨_, .differ hph hu ht⟩

theorem completes {P : Params} {n D : Nat} {R : List Nat} {tags0 : Nat → Tag} (hn : R.Nodup) (htag : ∀ r ∈ R, P.tag r ≠ .unknown)
    (hnb : ∀ f, ∀ g ∈ P.nbr f, g < n) (hD : ∀ f, (P.nbr f).length ≤ D) {k : Nat} {c : Cfg} (h : Exec P R tags0 k c) :
    ∃ k' c', Exec P R tags0 k' c' ∧ AllDone R c' := by
  generalize hm : potential n D R c = m
  induction m using Nat.strongRecOn generalizing k c with
  | _ m ih =>
    by_cases hd : AllDone R c
    · exact ⟨k, c, h, hd⟩
    · obtain ⟨r, hr, c', st⟩ := progress (P := P) hd
      have := potential_step hn htag hD hr (pending_lt hnb h _) st
      exact ih _ (by omega) (.step h hr st) rfl

/-- The tags that the next step of an activity reads or writes. -/
def Accesses (P : Params) (r : Nat) (c : Cfg) (g : Nat) : Prop :=
  (c.phase r = .ready ∧ g = r) ∨ ∃ p q, c.phase r = .running (g :: p) q

/-- The next step of the activity writes the tag of `g`. -/
def Writes (r : Nat) (c : Cfg) (g : Nat) : Prop :=
  (c.phase r = .ready ∧ g = r) ∨ ∃ p q, c.phase r = .running (g :: p) q ∧ c.tags g = .unknown

theorem no_race {P : Params} {R : List Nat} {tags0 : Nat → Tag} {k : Nat} {c : Cfg} (hs : Seeds P R tags0) (hu : ∀ r ∈ R, tags0 r = .unknown)
    (h : Exec P R tags0 k c) {r r' g : Nat} (hr : r ∈ R) (hr' : r' ∈ R) (hne : r ≠ r') (hw : Writes r c g) (ha : Accesses P r' c g) : False := by
  have hi := Inv.exec hs h
  have h1 : Reach (Rel P) tags0 r g ∧ tags0 g = .unknown := by
    rcases hw with ⟨-, rfl⟩ | ⟨p, q, hp, hg⟩
    · exact ⟨.seed, hu g hr⟩
    · have hg0 := val_unknown0 hs hi hg
      obtain ⟨f, hf, hfg⟩ := (hi.que r hr _ _ hp).2 g (by simp)
      exact ⟨.step hf hfg hg0, hg0⟩
  have h2 : Reach (Rel P) tags0 r' g := by
    rcases ha with ⟨-, rfl⟩ | ⟨p, q, hp⟩
    · exact .seed
    · obtain ⟨f, hf, hfg⟩ := (hi.que r' hr' _ _ hp).2 g (by simp)
      exact .step hf hfg h1.2
  exact hne (hs.disj r hr r' hr' g h1.1 h2)

end Kigumi.Flood
