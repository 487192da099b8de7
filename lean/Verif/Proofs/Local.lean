import Verif.Model.ClassifyLocally
import Verif.Proofs.Global
import Verif.Tactics

/-! # Concurrent local classification: a program logic for tag programs -/
namespace Kigumi.TagProg
open Kigumi Global
open Kigumi.Flood (set_same set_other)

/-- `wp ok Post p K W`: when the tags in `K` are known to be classified and `W` are the faces written so far, every continuation of `p`, whatever other threads do, keeps to
`ok` (the tags a face may have), and ends in `Post`.  Other threads may classify faces and change tags within `ok` at any time. -/
def wp (ok : Nat → Tag → Prop) (Post : (Nat → Bool) → (Nat → Prop) → Warnings → Prop) : Prog → (Nat → Bool) → (Nat → Prop) → Prop
  | .ret w, K, W => Post K W w
  | .fail, _, _ => True
  | .diverge, _, _ => False
  | .read f k, K, W => (K f = false → wp ok Post (k .unknown) K W) ∧ ∀ t, t ≠ .unknown → ok f t → wp ok Post (k t) (Flood.set K f true) W
  | .write f t k, K, W => t ≠ .unknown ∧ ok f t ∧ wp ok Post k (Flood.set K f true) (fun x => W x ∨ x = f)

theorem set_true_mono {K : Nat → Bool} {f : Nat} {x : Nat} (h : K x = true) : Flood.set K f true x = true := by
  by_cases hx : x = f
  · subst hx; exact set_same _ _ _
  · rw [set_other _ _ hx]; exact h

theorem set_true_iff {K : Nat → Bool} {f x : Nat} : Flood.set K f true x = true ↔ x = f ∨ K x = true := by
  by_cases hx : x = f
  · subst hx; simp [set_same]
  · simp [set_other _ _ hx, hx]

/-- State of all activities during an execution. -/
structure Inv (ok : Nat → Tag → Prop) (Post : Nat → (Nat → Bool) → (Nat → Prop) → Warnings → Prop) (tags0 : Nat → Tag) (c : Cfg)
    (K : Nat → Nat → Bool) (W : Nat → Nat → Prop) : Prop where
  allowed : ∀ g, c.tags g ≠ .unknown → ok g (c.tags g)
  known : ∀ i g, K i g = true → c.tags g ≠ .unknown
  wps : ∀ i, wp ok (Post i) (c.prog i) (K i) (W i)
  source : ∀ g, c.tags g ≠ tags0 g → ∃ i, W i g
  stay : ∀ g, tags0 g ≠ .unknown → c.tags g ≠ .unknown

theorem Inv.step {ok : Nat → Tag → Prop} {Post : Nat → (Nat → Bool) → (Nat → Prop) → Warnings → Prop} {tags0 : Nat → Tag} {c c' : Cfg}
    {K : Nat → Nat → Bool} {W : Nat → Nat → Prop} (h : Inv ok Post tags0 c K W) {i : Nat} (st : Step i c c') :
    ∃ K' W', Inv ok Post tags0 c' K' W' := by
  cases st with
  | @read f k hp =>
    have hw := h.wps i
    rw [hp] at hw
    by_cases hu : c.tags f = .unknown
    · refine ⟨K, W, h.allowed, h.known, ?_, h.source, h.stay⟩
      intro j
      by_cases hj : j = i
      · subst hj
        simp only [set_same, hu]
        exact hw.1 (by
          by_contra hc
          exact h.known j f (by simpa using hc) hu)
      · simp only [set_other _ _ hj]; exact h.wps j
    · refine ⟨Flood.set K i (Flood.set (K i) f true), W, h.allowed, ?_, ?_, h.source, h.stay⟩
      · intro j g hg
        by_cases hj : j = i
        · subst hj
          rw [set_same] at hg
          rcases set_true_iff.1 hg with rfl | hg
          · exact hu
          · exact h.known j g hg
        · rw [set_other _ _ hj] at hg; exact h.known j g hg
      · intro j
        by_cases hj : j = i
        · subst hj
          simp only [set_same]
          exact hw.2 _ hu (h.allowed f hu)
        · simp only [set_other _ _ hj]; exact h.wps j
  | @write f t k hp =>
    have hw := h.wps i
    rw [hp] at hw
    obtain ⟨ht, hok, hk⟩ := hw
    refine ⟨Flood.set K i (Flood.set (K i) f true), Flood.set W i (fun x => W i x ∨ x = f), ?_, ?_, ?_, ?_, ?_⟩
    · intro g hg
      by_cases hgf : g = f
      · subst hgf; simp only [set_same]; exact hok
      · simp only [set_other _ _ hgf] at *; exact h.allowed g hg
    · intro j g hg
      by_cases hgf : g = f
      · subst hgf; simp only [set_same]; exact ht
      · simp only [set_other _ _ hgf]
        by_cases hj : j = i
        · subst hj
          rw [set_same] at hg
          rcases set_true_iff.1 hg with rfl | hg
          · exact absurd rfl hgf
          · exact h.known j g hg
        · rw [set_other _ _ hj] at hg; exact h.known j g hg
    · intro j
      by_cases hj : j = i
      · subst hj; simp only [set_same]; exact hk
      · simp only [set_other _ _ hj]; exact h.wps j
    · intro g hg
      by_cases hgf : g = f
      · exact ⟨i, by rw [set_same]; exact Or.inr hgf⟩
      · simp only [set_other _ _ hgf] at hg
        obtain ⟨j, hj⟩ := h.source g hg
        refine ⟨j, ?_⟩
        by_cases hji : j = i
        · subst hji; rw [set_same]; exact Or.inl hj
        · rw [set_other _ _ hji]; exact hj
    · intro g hg
      by_cases hgf : g = f
      · subst hgf; simp only [set_same]; exact ht
      · simp only [set_other _ _ hgf]; exact h.stay g hg

theorem Inv.exec {ok : Nat → Tag → Prop} {Post : Nat → (Nat → Bool) → (Nat → Prop) → Warnings → Prop} {c0 c : Cfg}
    (h0 : ∀ g, c0.tags g ≠ .unknown → ok g (c0.tags g)) (hwp : ∀ i, TagProg.wp ok (Post i) (c0.prog i) (fun _ => false) (fun _ => False)) (h : Exec c0 c) :
    ∃ K W, Inv ok Post c0.tags c K W := by
  induction h with
  | init => exact ⟨fun _ _ => false, fun _ _ => False, h0, by simp, hwp, by simp, fun _ h => h⟩
  | step _ st ih => obtain ⟨K, W, hi⟩ := ih; exact hi.step st

end Kigumi.TagProg

namespace Kigumi.Local
open Kigumi TagProg Global
open Kigumi.Flood (set_same set_other)

/-- Faces that share a side allow the same tags. -/
def Spread (E : Env) (ok : Nat → Tag → Prop) : Prop := ∀ f g t, g ∈ E.nbr f → ok f t → ok g t
/-- Every face allows at most one tag. -/
def Unique (ok : Nat → Tag → Prop) : Prop := ∀ f t t', ok f t → ok f t' → t = t'

/-- All neighbours are classified. -/
def Closed (E : Env) (K : Nat → Bool) (x : Nat) : Prop := ∀ g ∈ E.nbr x, K g = true

theorem Closed.mono {E : Env} {K K' : Nat → Bool} {x : Nat} (h : Closed E K x) (hk : ∀ x, K x = true → K' x = true) : Closed E K' x :=
  fun g hg => hk g (h g hg)

theorem unv_known {n : Nat} {K : Nat → Bool} {g : Nat} (h : K g = true) : Flood.set K g true = K := by
  funext x
  by_cases hx : x = g
  · subst hx; rw [set_same, h]
  · rw [set_other _ _ hx]

theorem unv_set_le {n : Nat} {K : Nat → Bool} {g : Nat} : unv n (Flood.set K g true) ≤ unv n K := by
  unfold unv
  apply List.countP_mono_left
  intro x _ h
  by_cases hx : x = g
  · subst hx; simp [set_same] at h
  · simpa [set_other _ _ hx] using h

theorem floodLoop_wp {E : Env} {ok : Nat → Tag → Prop} {Post : (Nat → Bool) → (Nat → Prop) → Warnings → Prop} (hn : ∀ f, ∀ g ∈ E.nbr f, g < E.n)
    (hsp : Spread E ok) {tag : Tag} (htag : tag ≠ .unknown) {fl : Warnings} {k : Warnings → Prog} (fuel : Nat) (pending queue : List Nat) (w : Warnings) :
    ∀ (K : Nat → Bool) (W : Nat → Prop), queue.length + unv E.n K ≤ fuel →
    (∀ g ∈ pending, ok g tag ∧ g < E.n) → (∀ g ∈ queue, ok g tag) →
    (∀ K' W' w', (∀ x, K x = true → K' x = true) → (∀ g ∈ pending, K' g = true) → (∀ x ∈ queue, Closed E K' x) → (∀ x, W' x → W x ∨ Closed E K' x) →
      (Unique ok → w' = w) → wp ok Post (k w') K' W') →
    wp ok Post (floodLoop E tag fl k fuel pending queue w) K W := by
  fun_induction floodLoop E tag fl k fuel pending queue w with
  | case1 fuel w =>
    intro K W _ _ _ hk
    exact hk K W w (fun _ h => h) (by simp) (by simp) (fun x h => Or.inl h) (fun _ => rfl)
  | case2 w f q => intro K W h; simp at h
  | case3 w f q fuel ih =>
    intro K W hf _ hq hk
    refine ih K W (by simp at hf; omega) (fun g hg => ⟨hsp f g tag hg (hq f (by simp)), hn f g hg⟩) (fun g hg => hq g (by simp [hg])) ?_
    intro K' W' w' h1 h2 h3 h4 h5
    refine hk K' W' w' h1 (by simp) ?_ h4 h5
    intro x hx
    rcases List.mem_cons.1 hx with rfl | hx
    · exact h2
    · exact h3 x hx
  | case4 fuel w g p q ih1 ih2 =>
    intro K W hf hp hq hk
    refine ⟨?_, ?_⟩
    · intro hK
      simp only [if_pos]
      refine ⟨htag, (hp g (by simp)).1, ?_⟩
      refine ih1 (Flood.set K g true) (fun x => W x ∨ x = g) ?_ (fun x hx => hp x (by simp [hx])) ?_ ?_
      · have := unv_set (hp g (by simp)).2 hK
        simp; omega
      · intro x hx
        rcases List.mem_append.1 hx with hx | hx
        · exact hq x hx
        · rw [List.mem_singleton.1 hx]; exact (hp g (by simp)).1
      · intro K' W' w' h1 h2 h3 h4 h5
        refine hk K' W' w' (fun x hx => h1 x (set_true_mono hx)) ?_ (fun x hx => h3 x (by simp [hx])) ?_ h5
        · intro x hx
          rcases List.mem_cons.1 hx with rfl | hx
          · exact h1 x (set_same _ _ _)
          · exact h2 x hx
        · intro x hx
          rcases h4 x hx with (h | rfl) | h
          · exact Or.inl h
          · exact Or.inr (h3 x (by simp))
          · exact Or.inr h
    · intro t ht hokt
      simp only [if_neg ht]
      refine ⟨fun h => by simp [set_same] at h, ?_⟩
      intro t' ht' hokt'
      rw [unv_known (n := E.n) (set_same _ _ _)]
      refine ih2 t' (Flood.set K g true) W ?_ (fun x hx => hp x (by simp [hx])) hq ?_
      · have : unv E.n (Flood.set K g true) ≤ unv E.n K := unv_set_le
        omega
      · intro K' W' w' h1 h2 h3 h4 h5
        refine hk K' W' w' (fun x hx => h1 x (set_true_mono hx)) ?_ h3 h4 ?_
        · intro x hx
          rcases List.mem_cons.1 hx with rfl | hx
          · exact h1 x (set_same _ _ _)
          · exact h2 x hx
        · intro hu
          rw [h5 hu, dif_neg]
          exact fun h => h (hu g t' tag hokt' (hp g (by simp)).1)

theorem flood_wp {E : Env} {ok : Nat → Tag → Prop} {Post : (Nat → Bool) → (Nat → Prop) → Warnings → Prop} (hn : ∀ f, ∀ g ∈ E.nbr f, g < E.n)
    (hsp : Spread E ok) {k : Warnings → Prog} {seed : Nat} {K : Nat → Bool} {W : Nat → Prop} (hK : K seed = true)
    (hk : ∀ K' W' w', (∀ x, K x = true → K' x = true) → Closed E K' seed → (∀ x, W' x → W x ∨ Closed E K' x) →
      (Unique ok → w' = .none) → wp ok Post (k w') K' W') :
    wp ok Post (flood E seed k) K W := by
  refine ⟨fun h => by rw [hK] at h; simp at h, ?_⟩
  intro tag ht hok
  rw [unv_known (n := E.n) hK]
  refine floodLoop_wp hn hsp ht _ _ _ _ K W ?_ (by simp) (by simpa using hok) ?_
  · have := unv_le E.n K; simp; omega
  · intro K' W' w' h1 _ h3 h4 h5
    exact hk K' W' w' h1 (h3 seed (by simp)) h4 h5

theorem propagate_wp {E : Env} {ok : Nat → Tag → Prop} {Post : (Nat → Bool) → (Nat → Prop) → Warnings → Prop} (hn : ∀ f, ∀ g ∈ E.nbr f, g < E.n)
    (hsp : Spread E ok) : ∀ (fs : List Entry) (w : Warnings) (K : Nat → Bool) (W : Nat → Prop),
    (∀ x, W x → Closed E K x ∨ (x ∈ fs.map (·.fi) ∧ K x = true)) →
    (∀ K' W' w', (∀ x, K x = true → K' x = true) → (∀ x, W' x → Closed E K' x) → (Unique ok → w' = w) → Post K' W' w') →
    wp ok Post (propagate E fs w) K W
  | [], w, K, W, hW, hP => hP K W w (fun _ h => h) (fun x hx => by simpa using hW x hx) (fun _ => rfl)
  | f :: fs, w, K, W, hW, hP => by
    have key : ∀ K1 : Nat → Bool, (∀ x, K x = true → K1 x = true) → K1 f.fi = true →
        wp ok Post (flood E f.fi fun w' => propagate E fs (Warnings.or w w')) K1 W := by
      intro K1 hm hf
      refine flood_wp hn hsp hf ?_
      intro K' W' w' h1 h2 h3 h4
      refine propagate_wp hn hsp fs _ K' W' ?_ ?_
      · intro x hx
        rcases h3 x hx with h | h
        · rcases hW x h with h | ⟨h, hk⟩
          · exact Or.inl (h.mono (fun y hy => h1 y (hm y hy)))
          · simp only [List.map_cons, List.mem_cons] at h
            rcases h with rfl | h
            · exact Or.inl h2
            · exact Or.inr ⟨h, h1 x (hm x hk)⟩
        · exact Or.inl h
      · intro K2 W2 w2 h7 h5 h6
        refine hP K2 W2 w2 (fun x hx => h7 x (h1 x (hm x hx))) h5 ?_
        intro hu
        rw [h6 hu, h4 hu]
        simp [Warnings.or, Warnings.none]
    refine ⟨?_, ?_⟩
    · intro hK
      simp only [ne_eq, not_true_eq_false, if_false]
      refine propagate_wp hn hsp fs w K W ?_ hP
      intro x hx
      rcases hW x hx with h | ⟨h, hk⟩
      · exact Or.inl h
      · simp only [List.map_cons, List.mem_cons] at h
        rcases h with rfl | h
        · rw [hK] at hk; simp at hk
        · exact Or.inr ⟨h, hk⟩
    · intro t ht _
      simp only [ne_eq, ht, not_false_eq_true, if_true]
      exact key _ (fun x hx => set_true_mono hx) (set_same _ _ _)

theorem findUntagged_wp {ok : Nat → Tag → Prop} {Post : (Nat → Bool) → (Nat → Prop) → Warnings → Prop} {W : Nat → Prop} {k : Bool → Prog} :
    ∀ (l : List Nat) (K : Nat → Bool), (∀ K' b, (∀ x, K x = true → K' x = true) → (b = false → ∀ x ∈ l, K' x = true) → wp ok Post (k b) K' W) →
      wp ok Post (findUntagged l k) K W
  | [], K, hk => hk K false (fun _ h => h) (by simp)
  | f :: fs, K, hk => by
    refine ⟨fun _ => by simpa using hk K true (fun _ h => h) (by simp), ?_⟩
    intro t ht _
    simp only [if_neg ht]
    refine findUntagged_wp fs _ (fun K' b h h' => hk K' b (fun x hx => h x (set_true_mono hx)) ?_)
    intro hb x hx
    rcases List.mem_cons.1 hx with rfl | hx
    · exact h x (set_same _ _ _)
    · exact h' hb x hx

/-- What must hold around an edge for the tags written there to be allowed: `Ov` are the overlapping faces, `G i t` says that the walking tag `t` is right at entry `i`. -/
structure EdgeOK (ok : Nat → Tag → Prop) (cs : List Entry) (Ov : Nat → Prop) (G : Nat → Tag → Prop) : Prop where
  ov : ∀ x, Ov x → ∀ t t', ok x t → ok x t' → t = t' ∧ (t = .coplanar ∨ t = .opposite)
  ovKnown : ∀ x, Ov x → ∃ i, i < cs.length ∧ (nth cs i).r = (nth cs ((i + 1) % cs.length)).r ∧ (x = (nth cs i).fi ∨ x = (nth cs ((i + 1) % cs.length)).fi)
  tag1 : ∀ i, i < cs.length → (nth cs i).r = (nth cs ((i + 1) % cs.length)).r →
    ∀ t : Tag, t = (if (nth cs i).ccw = (nth cs ((i + 1) % cs.length)).ccw then .coplanar else .opposite) → ok (nth cs i).fi t ∧ ok (nth cs ((i + 1) % cs.length)).fi t
  tag2 : ∀ i, i < cs.length → ¬ Ov (nth cs i).fi → ¬ Ov (nth cs ((i + 1) % cs.length)).fi → (nth cs i).ccw = (nth cs ((i + 1) % cs.length)).ccw →
    ok (nth cs i).fi (if (nth cs i).ccw then .interior else .exterior) ∧ ok (nth cs ((i + 1) % cs.length)).fi (if (nth cs i).ccw then .exterior else .interior)
  good : ∀ i t, G i t → t ≠ .unknown
  init : ∀ i, i < cs.length → ¬ Ov (nth cs i).fi → ∀ t, t ≠ .unknown → ok (nth cs i).fi t → G i t
  next : ∀ i t, i < cs.length → G i t →
    G ((i + 1) % cs.length) (if (nth cs ((i + 1) % cs.length)).ccw = (nth cs i).ccw then (if t = .exterior then .interior else .exterior) else t)
  write : ∀ i t, i < cs.length → G i t → ¬ Ov (nth cs i).fi → ok (nth cs i).fi t

/-- Additional facts around a consistent edge with a pair of consecutive non-overlapping faces of the same orientation; then every face is tagged. -/
structure Exact (ok : Nat → Tag → Prop) (cs : List Entry) (Ov : Nat → Prop) (G : Nat → Tag → Prop) : Prop where
  ne : ∀ x t, ok x t → t ≠ .unknown
  sep : ∀ i, i < cs.length → ¬ Ov (nth cs i).fi → ∀ t, ok (nth cs i).fi t → t ≠ .coplanar ∧ t ≠ .opposite
  agree : ∀ i, i < cs.length → ∀ t t', G i t → ok (nth cs i).fi t' → t' = .exterior ∨ t' = .interior → t' = t
  pair : ∃ i, i < cs.length ∧ ¬ Ov (nth cs i).fi ∧ ¬ Ov (nth cs ((i + 1) % cs.length)).fi ∧ (nth cs i).ccw = (nth cs ((i + 1) % cs.length)).ccw

theorem nth_mem {cs : List Entry} {i : Nat} (h : i < cs.length) : nth cs i ∈ cs := by
  unfold nth; rw [List.getD_eq_getElem?_getD, List.getElem?_eq_getElem h]; exact List.getElem_mem _

theorem nth_fi_mem {cs : List Entry} {i : Nat} (h : i < cs.length) : (nth cs i).fi ∈ cs.map (·.fi) := List.mem_map_of_mem (nth_mem h)

theorem step1_wp {ok : Nat → Tag → Prop} {Post : (Nat → Bool) → (Nat → Prop) → Warnings → Prop} {cs : List Entry} {Ov : Nat → Prop} {G : Nat → Tag → Prop}
    (he : EdgeOK ok cs Ov G) {k : Prog} : ∀ (is : List Nat) (K : Nat → Bool) (W : Nat → Prop), (∀ i ∈ is, i < cs.length) →
    (∀ K' W', (∀ x, K x = true → K' x = true) → (∀ x, W' x → W x ∨ (x ∈ cs.map (·.fi) ∧ K' x = true)) →
      (∀ i ∈ is, (nth cs i).r = (nth cs ((i + 1) % cs.length)).r → K' (nth cs i).fi = true ∧ K' (nth cs ((i + 1) % cs.length)).fi = true) → wp ok Post k K' W') →
    wp ok Post (step1 cs is k) K W
  | [], K, W, _, hk => hk K W (fun _ h => h) (fun x h => Or.inl h) (by simp)
  | i :: is, K, W, hi, hk => by
    have hic := hi i (by simp)
    have hj : (i + 1) % cs.length < cs.length := Nat.mod_lt _ (by omega)
    unfold step1
    by_cases hr : (nth cs i).r = (nth cs ((i + 1) % cs.length)).r
    · simp only [hr, if_true]
      have hok := he.tag1 i hic hr _ rfl
      have hne : (if (nth cs i).ccw = (nth cs ((i + 1) % cs.length)).ccw then Tag.coplanar else Tag.opposite) ≠ .unknown := by split <;> simp
      refine ⟨hne, hok.1, hne, hok.2, ?_⟩
      refine step1_wp he is _ _ (fun x hx => hi x (by simp [hx])) ?_
      intro K' W' h1 h2 h3
      have hf : K' (nth cs i).fi = true := h1 _ (set_true_mono (set_same _ _ _))
      have hg : K' (nth cs ((i + 1) % cs.length)).fi = true := h1 _ (set_same _ _ _)
      refine hk K' W' (fun x hx => h1 x (set_true_mono (set_true_mono hx))) ?_ ?_
      · intro x hx
        rcases h2 x hx with ((h | rfl) | rfl) | h
        · exact Or.inl h
        · exact Or.inr ⟨nth_fi_mem hic, hf⟩
        · exact Or.inr ⟨nth_fi_mem hj, hg⟩
        · exact Or.inr h
      · intro x hx hrx
        rcases List.mem_cons.1 hx with rfl | hx
        · exact ⟨hf, hg⟩
        · exact h3 x hx hrx
    · simp only [hr, if_false]
      refine step1_wp he is K W (fun x hx => hi x (by simp [hx])) ?_
      intro K' W' h1 h2 h3
      refine hk K' W' h1 h2 ?_
      intro x hx hrx
      rcases List.mem_cons.1 hx with rfl | hx
      · exact absurd hrx hr
      · exact h3 x hx hrx

theorem isOverlapping_wp {ok : Nat → Tag → Prop} {Post : (Nat → Bool) → (Nat → Prop) → Warnings → Prop} {cs : List Entry} {Ov : Nat → Prop} {G : Nat → Tag → Prop}
    (he : EdgeOK ok cs Ov G) {f : Nat} {k : Bool → Prog} {K : Nat → Bool} {W : Nat → Prop} (hov : Ov f → K f = true)
    (ht : (¬ Ov f → ∃ t, ok f t ∧ (t = .coplanar ∨ t = .opposite)) → ∀ K', (∀ x, K x = true → K' x = true) → wp ok Post (k true) K' W)
    (hf : ¬ Ov f → ∀ K', (∀ x, K x = true → K' x = true) → wp ok Post (k false) K' W) : wp ok Post (isOverlapping f k) K W := by
  refine ⟨?_, ?_⟩
  · intro hK
    have hno : ¬ Ov f := fun h => by rw [hov h] at hK; simp at hK
    simp only [reduceCtorEq, if_false]
    refine ⟨fun _ => by simpa using hf hno K (fun _ h => h), ?_⟩
    intro t _ hokt
    by_cases h : t = .opposite
    · simp only [h, decide_true]; exact ht (fun _ => ⟨t, hokt, Or.inr h⟩) _ (fun x hx => set_true_mono hx)
    · simp only [h, decide_false]; exact hf hno _ (fun x hx => set_true_mono hx)
  · intro t htu hokt
    by_cases hc : t = .coplanar
    · simp only [hc, if_true]; exact ht (fun _ => ⟨t, hokt, Or.inl hc⟩) _ (fun x hx => set_true_mono hx)
    · simp only [if_neg hc]
      refine ⟨fun h => by simp [set_same] at h, ?_⟩
      intro t' _ hokt'
      by_cases h : t' = .opposite
      · simp only [h, decide_true]; exact ht (fun _ => ⟨t', hokt', Or.inr h⟩) _ (fun x hx => set_true_mono (set_true_mono hx))
      · simp only [h, decide_false]
        refine hf ?_ _ (fun x hx => set_true_mono (set_true_mono hx))
        intro hO
        obtain ⟨h1, h2⟩ := he.ov f hO t t' hokt hokt'
        subst h1
        rcases h2 with h2 | h2
        · exact hc h2
        · exact h h2

theorem step2_wp {ok : Nat → Tag → Prop} {Post : (Nat → Bool) → (Nat → Prop) → Warnings → Prop} {cs : List Entry} {Ov : Nat → Prop} {G : Nat → Tag → Prop}
    (he : EdgeOK ok cs Ov G) {k : Option Nat → Prog} : ∀ (is : List Nat) (st : Option Nat) (K : Nat → Bool) (W : Nat → Prop), (∀ i ∈ is, i < cs.length) →
    (∀ x, Ov x → K x = true) → (∀ x, st = some x → x < cs.length ∧ ¬ Ov (nth cs x).fi ∧ K (nth cs x).fi = true) →
    (∀ K' W' st', (∀ x, K x = true → K' x = true) → (∀ x, W' x → W x ∨ (x ∈ cs.map (·.fi) ∧ K' x = true)) →
      (∀ x, st' = some x → x < cs.length ∧ ¬ Ov (nth cs x).fi ∧ K' (nth cs x).fi = true) →
      ((∀ i, i < cs.length → ¬ Ov (nth cs i).fi → ∀ t, ok (nth cs i).fi t → t ≠ .coplanar ∧ t ≠ .opposite) →
        (st ≠ none ∨ ∃ i ∈ is, ¬ Ov (nth cs i).fi ∧ ¬ Ov (nth cs ((i + 1) % cs.length)).fi ∧ (nth cs i).ccw = (nth cs ((i + 1) % cs.length)).ccw) → st' ≠ none) →
      wp ok Post (k st') K' W') →
    wp ok Post (step2 cs is st k) K W
  | [], st, K, W, _, _, hst, hk => hk K W st (fun _ h => h) (fun x h => Or.inl h) hst (by rintro _ (h | h); exact h; simp at h)
  | i :: is, st, K, W, hi, hov, hst, hk => by
    have hic := hi i (by simp)
    have hj : (i + 1) % cs.length < cs.length := Nat.mod_lt _ (by omega)
    have skip : ((∀ i, i < cs.length → ¬ Ov (nth cs i).fi → ∀ t, ok (nth cs i).fi t → t ≠ .coplanar ∧ t ≠ .opposite) →
        ¬ (¬ Ov (nth cs i).fi ∧ ¬ Ov (nth cs ((i + 1) % cs.length)).fi ∧ (nth cs i).ccw = (nth cs ((i + 1) % cs.length)).ccw)) →
        ∀ K1, (∀ x, K x = true → K1 x = true) → wp ok Post (step2 cs is st k) K1 W := by
      intro hnp K1 hm
      refine step2_wp he is st K1 W (fun x hx => hi x (by simp [hx])) (fun x hx => hm x (hov x hx)) ?_ ?_
      · intro x hx; obtain ⟨a, b, c⟩ := hst x hx; exact ⟨a, b, hm _ c⟩
      · intro K' W' st' h1 h2 h3 h4
        refine hk K' W' st' (fun x hx => h1 x (hm x hx)) h2 h3 ?_
        intro hsep hex
        refine h4 hsep ?_
        rcases hex with h | ⟨x, hx, hp⟩
        · exact Or.inl h
        · rcases List.mem_cons.1 hx with rfl | hx
          · exact absurd hp (hnp hsep)
          · exact Or.inr ⟨x, hx, hp⟩
    unfold step2
    refine isOverlapping_wp he (hov _) (fun h0 K1 h1 => by
      simpa using skip (fun hsep hp => by
        obtain ⟨t, h2, h3⟩ := h0 hp.1
        have := hsep i hic hp.1 t h2
        rcases h3 with h3 | h3
        · exact this.1 h3
        · exact this.2 h3) K1 h1) ?_
    intro hof K1 hm1
    simp only [Bool.false_eq_true, if_false]
    refine isOverlapping_wp he (fun h => hm1 _ (hov _ h)) (fun h0 K2 h2 => by
      simpa using skip (fun hsep hp => by
        obtain ⟨t, h3, h4⟩ := h0 hp.2.1
        have := hsep _ hj hp.2.1 t h3
        rcases h4 with h4 | h4
        · exact this.1 h4
        · exact this.2 h4) K2 (fun x hx => h2 x (hm1 x hx))) ?_
    intro hog K2 hm2
    have hm : ∀ x, K x = true → K2 x = true := fun x hx => hm2 x (hm1 x hx)
    simp only [Bool.false_eq_true, if_false]
    by_cases hc : (nth cs i).ccw = (nth cs ((i + 1) % cs.length)).ccw
    · have hok := he.tag2 i hic hof hog hc
      have fin : wp ok Post (step2 cs is (some ((i + 1) % cs.length)) k) (Flood.set (Flood.set K2 (nth cs i).fi true) (nth cs ((i + 1) % cs.length)).fi true)
          (fun x => (W x ∨ x = (nth cs i).fi) ∨ x = (nth cs ((i + 1) % cs.length)).fi) := by
        refine step2_wp he is _ _ _ (fun x hx => hi x (by simp [hx])) (fun x hx => set_true_mono (set_true_mono (hm x (hov x hx)))) ?_ ?_
        · intro x hx
          cases hx
          exact ⟨hj, hog, set_same _ _ _⟩
        · intro K' W' st' h1 h2 h3 h4
          refine hk K' W' st' (fun x hx => h1 x (set_true_mono (set_true_mono (hm x hx)))) ?_ h3 (fun hsep _ => h4 hsep (Or.inl (by simp)))
          intro x hx
          rcases h2 x hx with ((h | rfl) | rfl) | h
          · exact Or.inl h
          · exact Or.inr ⟨nth_fi_mem hic, h1 _ (set_true_mono (set_same _ _ _))⟩
          · exact Or.inr ⟨nth_fi_mem hj, h1 _ (set_same _ _ _)⟩
          · exact Or.inr h
      simp only [hc, if_true]
      rw [hc] at hok
      by_cases hcc : (nth cs ((i + 1) % cs.length)).ccw = true
      · simp only [hcc, if_true] at hok ⊢
        exact ⟨by simp, hok.1, by simp, hok.2, fin⟩
      · simp only [hcc, if_false] at hok ⊢
        exact ⟨by simp, hok.1, by simp, hok.2, fin⟩
    · simp only [hc, if_false]
      exact skip (fun _ hp => hc hp.2.2) K2 hm

theorem tour_wp {ok : Nat → Tag → Prop} {Post : (Nat → Bool) → (Nat → Prop) → Warnings → Prop} {cs : List Entry} {Ov : Nat → Prop} {G : Nat → Tag → Prop}
    (he : EdgeOK ok cs Ov G) (hpos : 0 < cs.length) {dry : Bool} {k : Bool → Prog} : ∀ (m b : Nat) (tag : Tag) (K : Nat → Bool) (W : Nat → Prop),
    G (b % cs.length) tag → (∀ x, Ov x → K x = true) →
    (∀ K' W' c, (∀ x, K x = true → K' x = true) → (∀ x, W' x → W x ∨ (x ∈ cs.map (·.fi) ∧ K' x = true)) →
      (Exact ok cs Ov G → c = true ∧ (dry = false → ∀ d, d < m → K' (nth cs ((b + 1 + d) % cs.length)).fi = true)) → wp ok Post (k c) K' W') →
    wp ok Post (tour cs dry ((List.range m).map (fun d => b + 1 + d)) tag (nth cs (b % cs.length)).ccw k) K W
  | 0, b, tag, K, W, _, _, hk => by
    simp only [List.range_zero, List.map_nil, tour]
    exact hk K W true (fun _ h => h) (fun x h => Or.inl h) (fun _ => ⟨rfl, fun _ d hd => by omega⟩)
  | m + 1, b, tag, K, W, hG, hov, hk => by
    have e : (List.range (m + 1)).map (fun d => b + 1 + d) = (b + 1) :: (List.range m).map (fun d => (b + 1) + 1 + d) := by
      rw [List.range_succ_eq_map, List.map_cons, List.map_map]
      simp only [Nat.add_zero, List.cons.injEq, true_and]
      apply List.map_congr_left
      intro d _
      simp only [Function.comp]; omega
    rw [e]
    have hb : b % cs.length < cs.length := Nat.mod_lt _ hpos
    have hb1 : (b + 1) % cs.length < cs.length := Nat.mod_lt _ hpos
    have hmod : (b % cs.length + 1) % cs.length = (b + 1) % cs.length := by simp [Nat.add_mod]
    have hnext := he.next _ tag hb hG
    rw [hmod] at hnext
    simp only [tour]
    generalize hT : (if (nth cs ((b + 1) % cs.length)).ccw = (nth cs (b % cs.length)).ccw then (if tag = Tag.exterior then Tag.interior else Tag.exterior) else tag) = tag' at hnext ⊢
    have rest : ∀ K1 W1, (∀ x, K x = true → K1 x = true) → (∀ x, W1 x → W x ∨ (x ∈ cs.map (·.fi) ∧ K1 x = true)) →
        (dry = false → K1 (nth cs ((b + 1) % cs.length)).fi = true) →
        wp ok Post (tour cs dry ((List.range m).map (fun d => (b + 1) + 1 + d)) tag' (nth cs ((b + 1) % cs.length)).ccw k) K1 W1 := by
      intro K1 W1 hm hW hd1
      refine tour_wp he hpos m (b + 1) tag' K1 W1 hnext (fun x hx => hm x (hov x hx)) ?_
      intro K' W' c h1 h2 h3
      refine hk K' W' c (fun x hx => h1 x (hm x hx)) ?_ ?_
      · intro x hx
        rcases h2 x hx with h | h
        · rcases hW x h with h | ⟨h, h'⟩
          · exact Or.inl h
          · exact Or.inr ⟨h, h1 x h'⟩
        · exact Or.inr h
      · intro hx
        refine ⟨(h3 hx).1, fun hdry d hd => ?_⟩
        cases d with
        | zero => exact h1 _ (hd1 hdry)
        | succ d =>
          have := (h3 hx).2 hdry d (by omega)
          rwa [show b + 1 + (d + 1) = b + 1 + 1 + d from by omega]
    have check : ∀ K1, (∀ x, K x = true → K1 x = true) → K1 (nth cs ((b + 1) % cs.length)).fi = true →
        (Exact ok cs Ov G → ∀ t, ok (nth cs ((b + 1) % cs.length)).fi t → t = tag') → wp ok Post (Prog.read (nth cs ((b + 1) % cs.length)).fi fun t =>
        if t ≠ tag' then k false else tour cs dry ((List.range m).map (fun d => (b + 1) + 1 + d)) tag' (nth cs ((b + 1) % cs.length)).ccw k) K1 W := by
      intro K1 hm hK1 hag
      refine ⟨fun h => by rw [hK1] at h; simp at h, ?_⟩
      intro t _ hokt
      beta_reduce; split
      · rename_i hne
        exact hk _ W false (fun x hx => set_true_mono (hm x hx)) (fun x h => Or.inl h) (fun hx => absurd (hag hx t hokt) hne)
      · exact rest _ W (fun x hx => set_true_mono (hm x hx)) (fun x h => Or.inl h) (fun _ => set_same _ _ _)
    have agree : Exact ok cs Ov G → ∀ t, ok (nth cs ((b + 1) % cs.length)).fi t → (t = .exterior ∨ t = .interior) →
        ∀ t', ok (nth cs ((b + 1) % cs.length)).fi t' → t' = tag' := by
      intro hx t hokt ht t' hokt'
      by_cases hO : Ov (nth cs ((b + 1) % cs.length)).fi
      · have h1 := (he.ov _ hO t t hokt hokt).2
        rcases ht with rfl | rfl <;> simp at h1
      · have hs := hx.sep _ hb1 hO t' hokt'
        have hu := hx.ne _ _ hokt'
        exact hx.agree _ hb1 tag' t' hnext hokt' (by cases t' <;> simp_all)
    refine ⟨?_, ?_⟩
    · intro hK
      simp only [if_true]
      cases dry with
      | true => exact rest K W (fun _ h => h) (fun x h => Or.inl h) (by simp)
      | false =>
        have hno : ¬ Ov (nth cs ((b + 1) % cs.length)).fi := fun h => by rw [hov _ h] at hK; simp at hK
        refine ⟨he.good _ _ hnext, he.write _ _ hb1 hnext hno, rest _ _ (fun x hx => set_true_mono hx) ?_ (fun _ => set_same _ _ _)⟩
        intro x hx
        rcases hx with h | rfl
        · exact Or.inl h
        · exact Or.inr ⟨nth_fi_mem hb1, set_same _ _ _⟩
    · intro t ht _
      simp only [if_neg ht]
      refine ⟨fun h => by simp [set_same] at h, ?_⟩
      intro t2 ht2 ho2
      by_cases h2 : t2 = .exterior
      · simp only [h2, if_true]
        refine check _ (fun x hx => set_true_mono (set_true_mono hx)) (set_same _ _ _) ?_
        intro hx t4 ho4
        exact agree hx t2 ho2 (Or.inl h2) t4 ho4
      · simp only [if_neg h2]
        refine ⟨fun h => by simp [set_same] at h, ?_⟩
        intro t3 ht3 ho3
        by_cases h3 : t3 = .interior
        · simp only [h3, if_true]
          refine check _ (fun x hx => set_true_mono (set_true_mono (set_true_mono hx))) (set_same _ _ _) ?_
          intro hx t4 ho4
          exact agree hx t3 ho3 (Or.inr h3) t4 ho4
        · simp only [if_neg h3]
          exact rest _ W (fun x hx => set_true_mono (set_true_mono (set_true_mono hx))) (fun x h => Or.inl h) (fun _ => set_same _ _ _)

theorem step3_wp {ok : Nat → Tag → Prop} {Post : (Nat → Bool) → (Nat → Prop) → Warnings → Prop} {cs : List Entry} {Ov : Nat → Prop} {G : Nat → Tag → Prop}
    (he : EdgeOK ok cs Ov G) {rest : Prog} {k : Nat} (hk : k < cs.length) (hno : ¬ Ov (nth cs k).fi) (K : Nat → Bool) (W : Nat → Prop)
    (hK : K (nth cs k).fi = true) (hov : ∀ x, Ov x → K x = true)
    (hr : ∀ K' W', (∀ x, K x = true → K' x = true) → (∀ x, W' x → W x ∨ (x ∈ cs.map (·.fi) ∧ K' x = true)) →
      (Exact ok cs Ov G → ∀ i, i < cs.length → K' (nth cs i).fi = true) → wp ok Post rest K' W') :
    wp ok Post (step3 cs k rest) K W := by
  have hpos : 0 < cs.length := by omega
  have hkm : k % cs.length = k := Nat.mod_eq_of_lt hk
  refine ⟨fun h => by rw [hK] at h; simp at h, ?_⟩
  intro t ht hokt
  have h1 := tour_wp he hpos (dry := true) (Post := Post) (k := fun ok =>
      if ok then .read (nth cs k).fi fun tag => tour cs false (tourIndices cs k) tag (nth cs k).ccw fun _ => rest
      else rest) cs.length k t (Flood.set K (nth cs k).fi true) W (by rw [hkm]; exact he.init k hk hno t ht hokt) (fun x hx => set_true_mono (hov x hx))
  rw [hkm] at h1
  refine h1 ?_
  intro K1 W1 c hm1 hW1 hx1
  have hm1' : ∀ x, K x = true → K1 x = true := fun x hx => hm1 x (set_true_mono hx)
  cases c with
  | false => exact hr K1 W1 hm1' hW1 (fun hx => absurd (hx1 hx).1 (by simp))
  | true =>
    simp only [if_true]
    refine ⟨fun h => by rw [hm1' _ hK] at h; simp at h, ?_⟩
    intro t2 ht2 hokt2
    have h2 := tour_wp he hpos (dry := false) (Post := Post) (k := fun _ => rest) cs.length k t2 (Flood.set K1 (nth cs k).fi true) W1
      (by rw [hkm]; exact he.init k hk hno t2 ht2 hokt2) (fun x hx => set_true_mono (hm1' x (hov x hx)))
    rw [hkm] at h2
    refine h2 ?_
    intro K2 W2 _ hm2 hW2 hx2
    refine hr K2 W2 (fun x hx => hm2 x (set_true_mono (hm1' x hx))) ?_ ?_
    · intro x hx
      rcases hW2 x hx with h | h
      · rcases hW1 x h with h | ⟨h, h'⟩
        · exact Or.inl h
        · exact Or.inr ⟨h, hm2 x (set_true_mono h')⟩
      · exact Or.inr h
    · intro hx i hi
      have h3 := (hx2 hx).2 rfl ((i + cs.length - (k + 1)) % cs.length) (Nat.mod_lt _ hpos)
      have e : (k + 1 + (i + cs.length - (k + 1)) % cs.length) % cs.length = i := by
        rw [Nat.add_mod_mod, show k + 1 + (i + cs.length - (k + 1)) = i + cs.length from by omega, Nat.add_mod_right, Nat.mod_eq_of_lt hi]
      rwa [e] at h3

/-- The face is one of two successive faces that have the same third vertex. -/
def Twin (sorted : Option (List Entry)) (x : Nat) : Prop :=
  ∃ cs i, sorted = some cs ∧ i < cs.length ∧ (nth cs i).r = (nth cs ((i + 1) % cs.length)).r ∧ (x = (nth cs i).fi ∨ x = (nth cs ((i + 1) % cs.length)).fi)

/-- What every finished body guarantees: the neighbours of the faces it wrote are classified; no warning if tags are unique; around a consistent edge
with a suitable pair every face is classified; and successive faces with the same third vertex are classified. -/
def BodyPost (E : Env) (ok : Nat → Tag → Prop) (around : List Nat) (sorted : Option (List Entry)) (full : Prop) (K : Nat → Bool) (W : Nat → Prop) (w : Warnings) : Prop :=
  (∀ x, W x → Closed E K x) ∧ (Unique ok → w = .none) ∧ (full → ∀ x ∈ around, K x = true) ∧ ∀ x ∈ around, Twin sorted x → K x = true

theorem body_wp {E : Env} {ok : Nat → Tag → Prop} (hn : ∀ f, ∀ g ∈ E.nbr f, g < E.n) (hsp : Spread E ok) {around : List Nat} {sorted : Option (List Entry)}
    (full : Prop) (he : ∀ cs, sorted = some cs → ∃ Ov G, EdgeOK ok cs Ov G ∧ (full → Exact ok cs Ov G ∧ ∀ x ∈ around, x ∈ cs.map (·.fi))) :
    wp ok (BodyPost E ok around sorted full) (body E around sorted) (fun _ => false) (fun _ => False) := by
  unfold body
  refine findUntagged_wp _ _ ?_
  intro K b _ hb
  cases b with
  | false => exact ⟨by simp, fun _ => rfl, fun _ => hb rfl, fun x hx _ => hb rfl x hx⟩
  | true =>
    simp only [if_true]
    cases sorted with
    | none => exact trivial
    | some cs =>
      obtain ⟨Ov, G, he, hfull⟩ := he cs rfl
      refine step1_wp he _ _ _ (by simp) ?_
      intro K1 W1 hm1 hW1 hcop
      have hov : ∀ x, Ov x → K1 x = true := by
        intro x hx
        obtain ⟨i, hi, hr, hxi⟩ := he.ovKnown x hx
        obtain ⟨h1, h2⟩ := hcop i (by simpa using hi) hr
        rcases hxi with rfl | rfl
        · exact h1
        · exact h2
      have htwin : ∀ x, Twin (some cs) x → K1 x = true := by
        rintro x ⟨cs', i, e, hi, hr, hxi⟩
        cases e
        obtain ⟨h1, h2⟩ := hcop i (by simpa using hi) hr
        rcases hxi with rfl | rfl
        · exact h1
        · exact h2
      refine step2_wp he _ _ _ _ (by simp) hov (by simp) ?_
      intro K2 W2 st hm2 hW2 hst hsome
      have hW : ∀ x, W2 x → x ∈ cs.map (·.fi) ∧ K2 x = true := by
        intro x hx
        rcases hW2 x hx with h | h
        · rcases hW1 x h with h | ⟨h, h'⟩
          · exact h.elim
          · exact ⟨h, hm2 x h'⟩
        · exact h
      cases st with
      | none =>
        refine propagate_wp hn hsp _ _ _ _ (fun x hx => Or.inr (hW x hx)) ?_
        intro K' W' w' h0 h1 h2
        refine ⟨h1, h2, fun hf => ?_, fun x _ hx => h0 x (hm2 x (htwin x hx))⟩
        obtain ⟨i, hi, hp⟩ := (hfull hf).1.pair
        exact absurd rfl (hsome (hfull hf).1.sep (Or.inr ⟨i, by simpa using hi, hp⟩))
      | some k =>
        obtain ⟨hk, hno, hKk⟩ := hst k rfl
        refine step3_wp he hk hno K2 W2 hKk (fun x hx => hm2 x (hov x hx)) ?_
        intro K3 W3 hm3 hW3 hall
        refine propagate_wp hn hsp _ _ _ _ ?_ ?_
        · intro x hx
          rcases hW3 x hx with h | h
          · obtain ⟨a, b⟩ := hW x h; exact Or.inr ⟨a, hm3 x b⟩
          · exact Or.inr h
        · intro K' W' w' h0 h1 h2
          refine ⟨h1, h2, fun hf x hx => h0 x ?_, fun x _ hx => h0 x (hm3 x (hm2 x (htwin x hx)))⟩
          obtain ⟨e, he', rfl⟩ := List.mem_map.1 ((hfull hf).2 x hx)
          obtain ⟨i, hi, rfl⟩ := List.mem_iff_getElem.1 he'
          have := hall (hfull hf).1 i hi
          rwa [show nth cs i = cs[i] from by unfold nth; rw [List.getD_eq_getElem?_getD, List.getElem?_eq_getElem hi]; rfl] at this

end Kigumi.Local
