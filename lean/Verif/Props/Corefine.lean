import Verif.Model.Corefine
import Verif.Spec.Polygon
import Verif.Props.ParallelDo
import Verif.Tactics

/-! # C62, C63, C65: grouping of the intersection records, constraints and border edges, the mixed soup -/
namespace Kigumi.Corefine
open Kigumi Outcome Spec

/-! ### Groups -/

theorem takeWhile_imp {α : Type} {p : α → Bool} {y : α} : ∀ {l : List α}, y ∈ l.takeWhile p → p y = true := by
  intro l
  induction l with
  | nil => intro h; cases h
  | cons x l ih =>
    intro h
    rw [List.takeWhile_cons] at h
    split at h
    · rename_i hx
      rcases List.mem_cons.1 h with rfl | h
      · exact hx
      · exact ih h
    · cases h

theorem ranges_spec (key : Info → Nat) : ∀ (n : Nat) (l : List Info), l.length ≤ n → l.Pairwise (fun x y => key x ≤ key y) →
    (∀ r ∈ ranges key l, ∃ x xs, r = x :: xs ∧ r = l.filter (fun y => key y = key x)) ∧
    (ranges key l).Pairwise (fun r r' => ∀ x ∈ r, ∀ y ∈ r', key x < key y) ∧
    ∀ x ∈ l, ∃ r ∈ ranges key l, x ∈ r := by
  intro n
  induction n with
  | zero =>
    intro l hl _
    have : l = [] := List.length_eq_zero_iff.1 (by omega)
    subst this
    simp [ranges]
  | succ n ih =>
    intro l hl hs
    cases l with
    | nil => simp [ranges]
    | cons x xs =>
      rw [ranges]
      generalize ht : xs.takeWhile (fun y => !(decide (key x < key y))) = t
      generalize hd : xs.dropWhile (fun y => !(decide (key x < key y))) = d
      have hxs : xs = t ++ d := by rw [← ht, ← hd, List.takeWhile_append_dropWhile]
      have hlen : d.length ≤ n := by
        have : xs.length = t.length + d.length := by rw [hxs, List.length_append]
        simp only [List.length_cons] at hl; omega
      obtain ⟨hx, hxs'⟩ := List.pairwise_cons.1 hs
      rw [hxs] at hxs'
      obtain ⟨hst, hsd, htd⟩ := List.pairwise_append.1 hxs'
      have htk : ∀ y ∈ t, key y = key x := by
        intro y hy
        have h1 : key x ≤ key y := hx y (by rw [hxs]; exact List.mem_append_left _ hy)
        rw [← ht] at hy
        have h2 := takeWhile_imp hy
        simp only [Bool.not_eq_true', decide_eq_false_iff_not] at h2
        omega
      have hdk : ∀ y ∈ d, key x < key y := by
        cases d with
        | nil => simp
        | cons z zs =>
          have hz : key x < key z := by
            have := List.head_dropWhile_not (fun y => !(decide (key x < key y))) (l := xs) (by rw [hd]; simp)
            simp only [hd, List.head_cons, Bool.not_eq_false', decide_eq_true_eq] at this
            exact this
          intro y hy
          rcases List.mem_cons.1 hy with rfl | hy
          · exact hz
          · have := (List.pairwise_cons.1 hsd).1 y hy; omega
      obtain ⟨i1, i2, i3⟩ := ih d hlen hsd
      have hsub : ∀ r ∈ ranges key d, ∀ y ∈ r, y ∈ d := by
        intro r hr y hy
        obtain ⟨z, zs, e1, e2⟩ := i1 r hr
        rw [e2] at hy; exact (List.mem_filter.1 hy).1
      refine ⟨?_, ?_, ?_⟩
      · intro r hr
        rcases List.mem_cons.1 hr with rfl | hr
        · refine ⟨x, t, rfl, ?_⟩
          rw [List.filter_cons, if_pos (by simp), hxs, List.filter_append]
          have f1 : t.filter (fun y => decide (key y = key x)) = t := List.filter_eq_self.2 (fun y hy => by simp [htk y hy])
          have f2 : d.filter (fun y => decide (key y = key x)) = [] := by
            rw [List.filter_eq_nil_iff]; intro y hy; have := hdk y hy; simp; omega
          rw [f1, f2, List.append_nil]
        · obtain ⟨z, zs, e1, e2⟩ := i1 r hr
          refine ⟨z, zs, e1, ?_⟩
          have hz : z ∈ d := hsub r hr z (by rw [e1]; simp)
          have hkz := hdk z hz
          rw [e2, List.filter_cons, if_neg (by simp; omega), hxs, List.filter_append]
          have f1 : t.filter (fun y => decide (key y = key z)) = [] := by
            rw [List.filter_eq_nil_iff]; intro y hy; have := htk y hy; simp; omega
          rw [f1, List.nil_append]
      · rw [List.pairwise_cons]
        refine ⟨?_, i2⟩
        intro r hr a ha b hb
        have hb' := hdk b (hsub r hr b hb)
        have ha' : key a = key x := by
          rcases List.mem_cons.1 ha with rfl | ha
          · rfl
          · exact htk a ha
        omega
      · intro y hy
        rcases List.mem_cons.1 hy with rfl | hy
        · exact ⟨_, List.mem_cons_self, List.mem_cons_self⟩
        · rw [hxs] at hy
          rcases List.mem_append.1 hy with hy | hy
          · exact ⟨_, List.mem_cons_self, List.mem_cons_of_mem _ hy⟩
          · obtain ⟨r, h1, h2⟩ := i3 y hy
            exact ⟨r, by simp [h1], h2⟩

open Classical in
theorem emplaceAll_spec (key : Info → Nat) : ∀ (rs : List (List Info)) (m : Slots) (fi : Nat), emplaceAll key rs m fi =
    match m fi with
    | some v => some v
    | none => if ∃ x xs, x :: xs ∈ rs ∧ key x = fi then some none else none := by
  intro rs
  induction rs with
  | nil => intro m fi; cases h : m fi <;> simp [emplaceAll, h]
  | cons r rs ih =>
    intro m fi
    cases r with
    | nil =>
      rw [emplaceAll, ih]
      cases h : m fi <;> simp
    | cons x xs =>
      rw [emplaceAll, ih]
      by_cases hk : fi = key x
      · subst hk
        cases h : m (key x) with
        | some v => simp
        | none =>
          have : ∃ x' xs', x' :: xs' ∈ (x :: xs) :: rs ∧ key x' = key x := ⟨x, xs, by simp, rfl⟩
          simp only [if_pos this, if_true]
      · have hk' : key x ≠ fi := fun e => hk e.symm
        simp only [hk, if_false]
        cases h : m fi with
        | some v => rfl
        | none =>
          have : (∃ x' xs', x' :: xs' ∈ (x :: xs) :: rs ∧ key x' = fi) ↔ ∃ x' xs', x' :: xs' ∈ rs ∧ key x' = fi := by
            constructor
            · rintro ⟨x', xs', h1, h2⟩
              rcases List.mem_cons.1 h1 with e | h1
              · cases e; exact absurd h2 hk'
              · exact ⟨x', xs', h1, h2⟩
            · rintro ⟨x', xs', h1, h2⟩; exact ⟨x', xs', List.mem_cons_of_mem _ h1, h2⟩
          simp only [this]

theorem buildBody_key {crosses : Cdt → Vh → Vh → Bool} {fc : Region.Code} {key : Info → Nat} {faces : List (Tri Nat)} {ids : List Nat} {x : Info} {xs : List Info} {k : Nat} {t : Cdt}
    (h : buildBody crosses fc key faces ids (x :: xs) = ok (k, t)) : k = key x := by
  simp only [buildBody, bind_eq_ok] at h
  obtain ⟨_, _, _, _, _, _, _, _, _, _, e⟩ := h
  cases e; rfl

open Classical in
theorem store_spec (crosses : Cdt → Vh → Vh → Bool) (fc : Region.Code) (key : Info → Nat) (faces : List (Tri Nat)) (ids : List Nat) (rs : List (List Info)) (T : Nat → Cdt)
    (hok : ∀ (i : Nat) r, rs[i]? = some r → ∃ x xs, r = x :: xs ∧ buildBody crosses fc key faces ids r = ok (key x, T (key x))) :
    ∀ (log : List Nat) (m : Slots) (fi : Nat), store crosses fc key faces ids rs log m fi =
      if ∃ i ∈ log, ∃ x xs, rs[i]? = some (x :: xs) ∧ key x = fi then some (some (T fi)) else m fi := by
  intro log
  induction log with
  | nil => intro m fi; simp [store]
  | cons i log ih =>
    intro m fi
    rw [store, ih]
    by_cases h1 : ∃ i ∈ log, ∃ x xs, rs[i]? = some (x :: xs) ∧ key x = fi
    · have h2 : ∃ j ∈ i :: log, ∃ x xs, rs[j]? = some (x :: xs) ∧ key x = fi := by
        obtain ⟨j, hj, h⟩ := h1; exact ⟨j, List.mem_cons_of_mem _ hj, h⟩
      rw [if_pos h1, if_pos h2]
    · rw [if_neg h1]
      cases hr : rs[i]? with
      | none =>
        have h2 : ¬ ∃ j ∈ i :: log, ∃ x xs, rs[j]? = some (x :: xs) ∧ key x = fi := by
          rintro ⟨j, hj, x, xs, e, h⟩
          rcases List.mem_cons.1 hj with rfl | hj
          · rw [hr] at e; cases e
          · exact h1 ⟨j, hj, x, xs, e, h⟩
        rw [if_neg h2]
      | some r =>
        obtain ⟨x, xs, rfl, hb⟩ := hok i r hr
        simp only [hb]
        by_cases hk : fi = key x
        · subst hk
          have h2 : ∃ j ∈ i :: log, ∃ x' xs', rs[j]? = some (x' :: xs') ∧ key x' = key x := ⟨i, by simp, x, xs, hr, rfl⟩
          rw [if_pos h2, if_pos rfl]
        · have h2 : ¬ ∃ j ∈ i :: log, ∃ x xs, rs[j]? = some (x :: xs) ∧ key x = fi := by
            rintro ⟨j, hj, x', xs', e, h⟩
            rcases List.mem_cons.1 hj with rfl | hj
            · rw [hr] at e; cases e; exact hk h.symm
            · exact h1 ⟨j, hj, x', xs', e, h⟩
          rw [if_neg h2, if_neg hk]

end Kigumi.Corefine

namespace Kigumi.Props
open Kigumi Outcome Corefine Spec

/-- `sorted` is any result of the (unstable) sort of the records, `r` any result of the parallel loop.  If no exception leaves it, a face has an entry exactly if it has a record,
and its triangulation was built from exactly the records of the face, each once. -/
theorem C65_grouping (crosses : Cdt → Vh → Vh → Bool) (fc : Region.Code) (key : Info → Nat) (faces : List (Tri Nat)) (ids : List Nat) (infos sorted : List Info)
    (hp : sorted.Perm infos) (hs : sorted.Pairwise (fun x y => ¬ key y < key x)) {configured hardware : Nat} (hc : 1 ≤ configured) {r : ParallelDo.Result String Unit}
    (hr : ParallelDo.Returns (buildLoop crosses fc key faces ids (ranges key sorted)) configured hardware () r) (he : r.exc = none) (fi : Nat) :
    (¬ (∃ x ∈ infos, key x = fi) → store crosses fc key faces ids (ranges key sorted) r.log (emplaceAll key (ranges key sorted) (fun _ => none)) fi = none) ∧
    ((∃ x ∈ infos, key x = fi) → ∃ f a b c recs t, faces[fi]? = some f ∧ ids[f.a]? = some a ∧ ids[f.b]? = some b ∧ ids[f.c]? = some c ∧
      recs.Perm (infos.filter (fun x => key x = fi)) ∧ insertRange crosses recs (Cdt.new fc a b c) = ok t ∧
      store crosses fc key faces ids (ranges key sorted) r.log (emplaceAll key (ranges key sorted) (fun _ => none)) fi = some (some t)) := by
  have hs' : sorted.Pairwise (fun x y => key x ≤ key y) := hs.imp (fun h => by omega)
  obtain ⟨h1, h2, h3⟩ := ranges_spec key _ sorted (Nat.le_refl _) hs'
  obtain ⟨-, -, -, hlog⟩ := C14_exceptions _ hc hr
  have hlog := hlog he
  have hsucc := C14_success _ hc hr he
  -- every range was built
  have hok : ∀ (i : Nat) rg, (ranges key sorted)[i]? = some rg → ∃ x xs t, rg = x :: xs ∧ buildBody crosses fc key faces ids rg = ok (key x, t) := by
    intro i rg hi
    obtain ⟨s, s', hb⟩ := hsucc i (List.getElem?_eq_some_iff.1 hi).1
    obtain ⟨x, xs, rfl, -⟩ := h1 rg (List.mem_of_getElem? hi)
    simp only [buildLoop, hi] at hb
    cases hbb : buildBody crosses fc key faces ids (x :: xs) with
    | ok kt =>
      obtain ⟨k, t⟩ := kt
      have := buildBody_key hbb; subst this
      exact ⟨x, xs, t, rfl, rfl⟩
    | exn e => rw [hbb] at hb; cases hb
    | ub e => rw [hbb] at hb; cases hb
  -- the result only depends on the face
  let T : Nat → Cdt := fun fi => match buildBody crosses fc key faces ids (sorted.filter (fun y => key y = fi)) with
    | ok (_, t) => t
    | _ => Cdt.new 0 0 0 0
  have hok' : ∀ (i : Nat) rg, (ranges key sorted)[i]? = some rg → ∃ x xs, rg = x :: xs ∧ buildBody crosses fc key faces ids rg = ok (key x, T (key x)) := by
    intro i rg hi
    obtain ⟨x, xs, t, rfl, hb⟩ := hok i rg hi
    refine ⟨x, xs, rfl, ?_⟩
    obtain ⟨x', xs', e1, e2⟩ := h1 _ (List.mem_of_getElem? hi)
    cases e1
    have : T (key x) = t := by
      simp only [T]
      rw [← e2, hb]
    rw [this, hb]
  have hstore := store_spec crosses fc key faces ids (ranges key sorted) T hok' r.log (emplaceAll key (ranges key sorted) (fun _ => none)) fi
  have hex : (∃ i ∈ r.log, ∃ x xs, (ranges key sorted)[i]? = some (x :: xs) ∧ key x = fi) ↔ ∃ x ∈ infos, key x = fi := by
    constructor
    · rintro ⟨i, -, x, xs, e, hk⟩
      obtain ⟨x', xs', e1, e2⟩ := h1 _ (List.mem_of_getElem? e)
      cases e1
      have : x ∈ sorted := by
        have : x ∈ x :: xs := by simp
        rw [e2] at this; exact (List.mem_filter.1 this).1
      exact ⟨x, hp.mem_iff.1 this, hk⟩
    · rintro ⟨y, hy, hk⟩
      obtain ⟨rg, hrg, hyr⟩ := h3 y (hp.mem_iff.2 hy)
      obtain ⟨x, xs, e1, e2⟩ := h1 rg hrg
      obtain ⟨i, hi, e3⟩ := List.getElem_of_mem hrg
      refine ⟨i, hlog.mem_iff.2 (List.mem_range.2 hi), x, xs, by rw [List.getElem?_eq_getElem hi, e3, e1], ?_⟩
      rw [e2] at hyr
      have := (List.mem_filter.1 hyr).2
      simp only [decide_eq_true_eq] at this
      omega
  constructor
  · intro hno
    rw [hstore, if_neg (fun h => hno (hex.1 h)), emplaceAll_spec]
    simp only
    rw [if_neg]
    rintro ⟨x, xs, hm, hk⟩
    obtain ⟨x', xs', e1, e2⟩ := h1 _ hm
    cases e1
    have hx : x ∈ x :: xs := by simp
    rw [e2] at hx
    exact hno ⟨x, hp.mem_iff.1 (List.mem_filter.1 hx).1, hk⟩
  · intro hyes
    obtain ⟨i, -, x, xs, e, hk⟩ := hex.2 hyes
    obtain ⟨x', xs', e1, hb⟩ := hok' i _ e
    cases e1
    obtain ⟨x', xs', e1, e2⟩ := h1 _ (List.mem_of_getElem? e)
    cases e1
    subst hk
    rw [if_pos (hex.2 hyes)] at hstore
    simp only [buildBody, bind_eq_ok] at hb
    obtain ⟨f, hf, a, ha, b, hb', c, hc', t, ht, e3⟩ := hb
    cases e3
    rw [at!_ok] at hf ha hb' hc'
    exact ⟨f, a, b, c, x :: xs, _, hf, ha, hb', hc', by rw [e2]; exact hp.filter _, ht, hstore⟩

/-- Each record of a pair of faces is in one left group and one right group: grouping loses and duplicates nothing. -/
theorem C65_partition (key : Info → Nat) (infos sorted : List Info) (hp : sorted.Perm infos) (hs : sorted.Pairwise (fun x y => ¬ key y < key x)) :
    (ranges key sorted).flatten.Perm infos ∧ ((ranges key sorted).map (fun r => r.head?.map key)).Nodup := by
  have hs' : sorted.Pairwise (fun x y => key x ≤ key y) := hs.imp (fun h => by omega)
  constructor
  · have : ∀ (n : Nat) (l : List Info), l.length ≤ n → (ranges key l).flatten = l := by
      intro n
      induction n with
      | zero =>
        intro l hl
        have : l = [] := List.length_eq_zero_iff.1 (by omega)
        subst this; simp [ranges]
      | succ n ih =>
        intro l hl
        cases l with
        | nil => simp [ranges]
        | cons x xs =>
          rw [ranges, List.flatten_cons, ih _ (by
            have := (List.dropWhile_sublist (fun y => !(decide (key x < key y))) (l := xs)).length_le
            simp only [List.length_cons] at hl; omega), List.cons_append, List.takeWhile_append_dropWhile]
    rw [this _ _ (Nat.le_refl _)]; exact hp
  · obtain ⟨h1, h2, -⟩ := ranges_spec key _ sorted (Nat.le_refl _) hs'
    rw [List.Nodup, List.pairwise_map]
    refine (List.Pairwise.and_mem.1 h2).imp ?_
    rintro r r' ⟨hr, hr', h⟩ e
    obtain ⟨x, xs, rfl, -⟩ := h1 r hr
    obtain ⟨y, ys, rfl, -⟩ := h1 r' hr'
    simp only [List.head?_cons, Option.map_some, Option.some.injEq] at e
    have := h x (by simp) y (by simp)
    omega

example : ranges Info.left [⟨1, 5, [], [0]⟩, ⟨1, 3, [], [1]⟩, ⟨4, 3, [], [2]⟩] = [[⟨1, 5, [], [0]⟩, ⟨1, 3, [], [1]⟩], [⟨4, 3, [], [2]⟩]] := by
  simp [ranges, List.takeWhile, List.dropWhile]

end Kigumi.Props

namespace Kigumi.Corefine
open Kigumi Outcome Spec

/-! ### Constraints -/

/-- The corner of an intersection polygon fits the face: its part in the face is a simplex of the face and, if this is a vertex, the id is that of the vertex. -/
def Fits (t : Cdt) (id : Nat) (sym : Region.Code) : Prop :=
  ∃ r, Region.inter sym t.face = r ∧ (r = Region.LV0 ∨ r = Region.RV0 → id = t.a) ∧ (r = Region.LV1 ∨ r = Region.RV1 → id = t.b) ∧ (r = Region.LV2 ∨ r = Region.RV2 → id = t.c) ∧
    r ∈ [Region.LV0, Region.LV1, Region.LV2, Region.LE01, Region.LE12, Region.LE20, Region.LF, Region.RV0, Region.RV1, Region.RV2, Region.RE01, Region.RE12, Region.RE20, Region.RF]

/-- Same face and corners. -/
def SameFace (t t' : Cdt) : Prop := t'.face = t.face ∧ t'.a = t.a ∧ t'.b = t.b ∧ t'.c = t.c

theorem SameFace.refl (t : Cdt) : SameFace t t := ⟨rfl, rfl, rfl, rfl⟩
theorem SameFace.trans {t u v : Cdt} (h : SameFace t u) (k : SameFace u v) : SameFace t v := by
  obtain ⟨h1, h2, h3, h4⟩ := h
  obtain ⟨k1, k2, k3, k4⟩ := k
  exact ⟨k1.trans h1, k2.trans h2, k3.trans h3, k4.trans h4⟩

theorem SameFace.info {t t' : Cdt} (h : SameFace t t') (v : Vh) : t'.info v = t.info v := by
  obtain ⟨h1, h2, h3, h4⟩ := h
  cases v <;> simp [Cdt.info, h2, h3, h4]

theorem SameFace.fits {t t' : Cdt} (h : SameFace t t') {id : Nat} {sym : Region.Code} (hf : Fits t id sym) : Fits t' id sym := by
  obtain ⟨h1, h2, h3, h4⟩ := h
  unfold Fits at *
  rw [h1, h2, h3, h4]; exact hf

theorem insertInner_spec (t : Cdt) (id : Nat) : (t.insertInner id).2 = .inner id ∧ SameFace t (t.insertInner id).1 ∧ (t.insertInner id).1.constraints = t.constraints := by
  unfold Cdt.insertInner
  split
  · exact ⟨rfl, .refl t, rfl⟩
  · exact ⟨rfl, ⟨rfl, rfl, rfl, rfl⟩, rfl⟩

theorem insert_spec {t : Cdt} {id : Nat} {sym : Region.Code} (h : Fits t id sym) :
    ∃ t' v, t.insert id sym = ok (t', v) ∧ SameFace t t' ∧ t'.constraints = t.constraints ∧ t.info v = id := by
  obtain ⟨r, hr, h0, h1, h2, hm⟩ := h
  have hin : ∃ t' v, ok (t.insertInner id) = ok (t', v) ∧ SameFace t t' ∧ t'.constraints = t.constraints ∧ t.info v = id := by
    obtain ⟨a, b, c⟩ := insertInner_spec t id
    exact ⟨(t.insertInner id).1, (t.insertInner id).2, rfl, b, c, by rw [a]; rfl⟩
  unfold Cdt.insert
  rw [hr]
  dsimp only
  by_cases c0 : r = Region.LV0 ∨ r = Region.RV0
  · rw [if_pos c0]; exact ⟨t, _, rfl, .refl t, rfl, by simp [Cdt.info, h0 c0]⟩
  rw [if_neg c0]
  by_cases c1 : r = Region.LV1 ∨ r = Region.RV1
  · rw [if_pos c1]; exact ⟨t, _, rfl, .refl t, rfl, by simp [Cdt.info, h1 c1]⟩
  rw [if_neg c1]
  by_cases c2 : r = Region.LV2 ∨ r = Region.RV2
  · rw [if_pos c2]; exact ⟨t, _, rfl, .refl t, rfl, by simp [Cdt.info, h2 c2]⟩
  rw [if_neg c2]
  by_cases c3 : r = Region.LE01 ∨ r = Region.RE01
  · rw [if_pos c3]; exact hin
  rw [if_neg c3]
  by_cases c4 : r = Region.LE12 ∨ r = Region.RE12
  · rw [if_pos c4]; exact hin
  rw [if_neg c4]
  by_cases c5 : r = Region.LE20 ∨ r = Region.RE20
  · rw [if_pos c5]; exact hin
  rw [if_neg c5]
  by_cases c6 : r = Region.LF ∨ r = Region.RF
  · rw [if_pos c6]; exact hin
  exfalso
  simp only [List.mem_cons, List.not_mem_nil, or_false] at hm
  tauto

/-- Constraints as pairs of ids. -/
def Cdt.pairs (t : Cdt) : List (Nat × Nat) := t.constraints.map (fun c => (t.info c.1, t.info c.2))

theorem SameFace.pairs {t t' : Cdt} (h : SameFace t t') (hc : t'.constraints = t.constraints) : t'.pairs = t.pairs := by
  unfold Cdt.pairs
  rw [hc]
  apply List.map_congr_left
  intro c _
  rw [h.info, h.info]

theorem insertConstraint_spec {crosses : Cdt → Vh → Vh → Bool} (hcr : ∀ t i j, crosses t i j = false) (t : Cdt) (i j : Vh) :
    ∃ t', t.insertConstraint crosses i j = ok t' ∧ SameFace t t' ∧ t'.pairs = t.pairs ++ [(t.info i, t.info j)] := by
  have hs : SameFace t { t with constraints := t.constraints ++ [(i, j)] } := ⟨rfl, rfl, rfl, rfl⟩
  refine ⟨{ t with constraints := t.constraints ++ [(i, j)] }, by simp [Cdt.insertConstraint, hcr], hs, ?_⟩
  unfold Cdt.pairs
  simp only [List.map_append, List.map_cons, List.map_nil, hs.info]

theorem insertLoop_spec {crosses : Cdt → Vh → Vh → Bool} (hcr : ∀ t i j, crosses t i j = false) (info : Info) (t0 : Cdt) (hl : info.syms.length = info.ids.length)
    (hfit : ∀ (i : Nat) id sym, info.ids[i]? = some id → info.syms[i]? = some sym → Fits t0 id sym) :
    ∀ (n i : Nat) (t : Cdt) (f p : Vh), i + n = info.ids.length → SameFace t0 t →
    ∃ t' p', insertLoop crosses info n i t (some f) (some p) = ok (t', some f, some p') ∧ SameFace t0 t' ∧
      t'.pairs = t.pairs ++ ((t0.info p :: info.ids.drop i).zip (info.ids.drop i)) ∧ some (t0.info p') = (t0.info p :: info.ids.drop i).getLast? := by
  intro n
  induction n with
  | zero =>
    intro i t f p hi hs
    refine ⟨t, p, rfl, hs, ?_, ?_⟩
    · rw [List.drop_of_length_le (by omega)]; simp
    · rw [List.drop_of_length_le (by omega)]; simp
  | succ n ih =>
    intro i t f p hi hs
    have h1 : i < info.ids.length := by omega
    have h2 : i < info.syms.length := by omega
    have e1 := List.getElem?_eq_getElem h1
    have e2 := List.getElem?_eq_getElem h2
    obtain ⟨t1, v, a1, a2, a3, a4⟩ := insert_spec (hs.fits (hfit i _ _ e1 e2))
    obtain ⟨t2, b1, b2, b3⟩ := insertConstraint_spec hcr t1 p v
    obtain ⟨t', p', c1, c2, c3, c4⟩ := ih (i + 1) t2 f v (by omega) ((hs.trans a2).trans b2)
    refine ⟨t', p', ?_, c2, ?_, ?_⟩
    · simp only [insertLoop, at!, e1, e2, ok_bind, a1, b1]; exact c1
    · have hv : t0.info v = info.ids[i] := by rw [← hs.info, a4]
      rw [c3, b3, a2.pairs a3, List.drop_eq_getElem_cons h1, List.zip_cons_cons, hv]
      have : t1.info p = t0.info p ∧ t1.info v = info.ids[i] := ⟨(hs.trans a2).info p, by rw [(hs.trans a2).info, hv]⟩
      rw [this.1, this.2]; simp
    · have hv : t0.info v = info.ids[i] := by rw [← hs.info, a4]
      rw [c4, hv, List.drop_eq_getElem_cons h1, List.getLast?_cons_cons]

/-! ### Border edges -/

theorem insertEdge_mem (s : List (Nat × Nat)) (e x : Nat × Nat) : x ∈ insertEdge s e ↔ x ∈ s ∨ x = e := by
  unfold insertEdge
  split
  · rename_i h
    constructor
    · exact Or.inl
    · rintro (h' | rfl)
      · exact h'
      · exact h
  · simp

theorem insertEdge_nodup {s : List (Nat × Nat)} (h : s.Nodup) (e : Nat × Nat) : (insertEdge s e).Nodup := by
  unfold insertEdge
  split
  · exact h
  · rename_i hn
    rw [List.nodup_append]
    exact ⟨h, by simp, by rintro a ha b hb rfl; simp at hb; subst hb; exact hn ha⟩

theorem edgesOf_spec (ids : List Nat) : ∀ (is : List Nat) (s : List (Nat × Nat)), s.Nodup → (∀ i ∈ is, i < ids.length) →
    ∃ s', edgesOf ids is s = ok s' ∧ s'.Nodup ∧ ∀ e, e ∈ s' ↔ e ∈ s ∨ ∃ i ∈ is, ∃ u v, ids[i]? = some u ∧ ids[(i + 1) % ids.length]? = some v ∧ e = makeEdge u v := by
  intro is
  induction is with
  | nil => intro s hs _; exact ⟨s, rfl, hs, by simp⟩
  | cons i is ih =>
    intro s hs hb
    have hi := hb i (by simp)
    have hj : (if i < ids.length - 1 then i + 1 else 0) = (i + 1) % ids.length := by
      split
      · rw [Nat.mod_eq_of_lt (by omega)]
      · have : i + 1 = ids.length := by omega
        rw [this, Nat.mod_self]
    have hj' : (i + 1) % ids.length < ids.length := Nat.mod_lt _ (by omega)
    obtain ⟨s', a, b, c⟩ := ih (insertEdge s (makeEdge ids[i] ids[(i + 1) % ids.length])) (insertEdge_nodup hs _) (fun k hk => hb k (by simp [hk]))
    refine ⟨s', ?_, b, ?_⟩
    · rw [edgesOf]
      simp only [hj, at!, List.getElem?_eq_getElem hi, List.getElem?_eq_getElem hj', ok_bind]
      exact a
    · intro e
      rw [c, insertEdge_mem]
      constructor
      · rintro ((h | h) | ⟨k, hk, h⟩)
        · exact Or.inl h
        · exact Or.inr ⟨i, by simp, _, _, List.getElem?_eq_getElem hi, List.getElem?_eq_getElem hj', h⟩
        · exact Or.inr ⟨k, by simp [hk], h⟩
      · rintro (h | ⟨k, hk, u, v, h1, h2, h3⟩)
        · exact Or.inl (Or.inl h)
        · rcases List.mem_cons.1 hk with rfl | hk
          · rw [List.getElem?_eq_getElem hi] at h1
            rw [List.getElem?_eq_getElem hj'] at h2
            cases h1; cases h2
            exact Or.inl (Or.inr h3)
          · exact Or.inr ⟨k, hk, u, v, h1, h2, h3⟩

theorem makeEdge_iff (e : Nat × Nat) (u v : Nat) : e = makeEdge u v ↔ IsEdgeOf e u v := by
  unfold makeEdge IsEdgeOf
  obtain ⟨x, y⟩ := e
  simp only [Prod.mk.injEq]
  split
  · simp only [Prod.mk.injEq]; omega
  · simp only [Prod.mk.injEq]; omega

end Kigumi.Corefine

namespace Kigumi.Props
open Kigumi Outcome Corefine Spec

/-- The border edges are exactly the edges between cyclically consecutive corners of the records with at least two corners; smaller end first, each once. -/
theorem C63_border (infos : List Info) : ∃ s, intersectingEdges infos [] = ok s ∧ s.Nodup ∧
    ∀ e, e ∈ s ↔ ∃ x ∈ infos, 2 ≤ x.ids.length ∧ ∃ u v, Follows x.ids u v ∧ IsEdgeOf e u v := by
  have key : ∀ (infos : List Info) (s : List (Nat × Nat)), s.Nodup → ∃ s', intersectingEdges infos s = ok s' ∧ s'.Nodup ∧
      ∀ e, e ∈ s' ↔ e ∈ s ∨ ∃ x ∈ infos, 2 ≤ x.ids.length ∧ ∃ u v, Follows x.ids u v ∧ IsEdgeOf e u v := by
    intro infos
    induction infos with
    | nil => intro s hs; exact ⟨s, rfl, hs, by simp⟩
    | cons x xs ih =>
      intro s hs
      unfold intersectingEdges
      by_cases hl : x.ids.length < 2
      · rw [if_pos hl]
        obtain ⟨s', a, b, c⟩ := ih s hs
        refine ⟨s', a, b, fun e => ?_⟩
        rw [c]
        constructor
        · rintro (h | ⟨y, hy, h⟩)
          · exact Or.inl h
          · exact Or.inr ⟨y, by simp [hy], h⟩
        · rintro (h | ⟨y, hy, h2, h⟩)
          · exact Or.inl h
          · rcases List.mem_cons.1 hy with rfl | hy
            · omega
            · exact Or.inr ⟨y, hy, h2, h⟩
      · rw [if_neg hl]
        obtain ⟨s1, a1, b1, c1⟩ := edgesOf_spec x.ids (List.range x.ids.length) s hs (by simp)
        obtain ⟨s', a, b, c⟩ := ih s1 b1
        refine ⟨s', by rw [a1, ok_bind]; exact a, b, fun e => ?_⟩
        have h1 : (∃ i ∈ List.range x.ids.length, ∃ u v, x.ids[i]? = some u ∧ x.ids[(i + 1) % x.ids.length]? = some v ∧ e = makeEdge u v) ↔ ∃ u v, Follows x.ids u v ∧ IsEdgeOf e u v := by
          constructor
          · rintro ⟨i, -, u, v, h1, h2, h3⟩
            exact ⟨u, v, ⟨i, h1, h2⟩, (makeEdge_iff _ _ _).1 h3⟩
          · rintro ⟨u, v, ⟨i, h1, h2⟩, h3⟩
            exact ⟨i, List.mem_range.2 (List.getElem?_eq_some_iff.1 h1).1, u, v, h1, h2, (makeEdge_iff _ _ _).2 h3⟩
        rw [c, c1, h1]
        constructor
        · rintro ((h | h) | ⟨y, hy, h⟩)
          · exact Or.inl h
          · exact Or.inr ⟨x, by simp, by omega, h⟩
          · exact Or.inr ⟨y, by simp [hy], h⟩
        · rintro (h | ⟨y, hy, h2, h⟩)
          · exact Or.inl (Or.inl h)
          · rcases List.mem_cons.1 hy with rfl | hy
            · exact Or.inl (Or.inr h)
            · exact Or.inr ⟨y, hy, h2, h⟩
  obtain ⟨s, a, b, c⟩ := key infos [] (by simp)
  exact ⟨s, a, b, fun e => by rw [c]; simp⟩

theorem noCross_constraints (crosses : Cdt → Vh → Vh → Bool) (hcr : ∀ t i j, crosses t i j = false) (t : Cdt) (info : Info) (hl : info.syms.length = info.ids.length)
    (hfit : ∀ (i : Nat) id sym, info.ids[i]? = some id → info.syms[i]? = some sym → Fits t id sym) :
    ∃ t' new, insertIntersection crosses t info = ok t' ∧ t'.pairs = t.pairs ++ new ∧ new.length = (if info.ids.length ≤ 2 then info.ids.length - 1 else info.ids.length) ∧
      ∀ e, (∃ u v, (u, v) ∈ new ∧ IsEdgeOf e u v) ↔ 2 ≤ info.ids.length ∧ ∃ u v, Follows info.ids u v ∧ IsEdgeOf e u v := by
  cases hids : info.ids with
  | nil =>
    refine ⟨t, [], ?_, by simp, by simp, by simp⟩
    simp [insertIntersection, hids, insertLoop]
  | cons x rest =>
    have hpos : 0 < info.ids.length := by rw [hids]; simp
    have e1 : info.ids[0]? = some x := by rw [hids]; rfl
    have h2 : 0 < info.syms.length := by omega
    have e2 := List.getElem?_eq_getElem h2
    obtain ⟨t1, v, a1, a2, a3, a4⟩ := insert_spec (hfit 0 _ _ e1 e2)
    obtain ⟨t2, p', c1, c2, c3, c4⟩ := insertLoop_spec hcr info t hl hfit (info.ids.length - 1) 1 t1 v v (by omega) a2
    have hd : info.ids.drop 1 = rest := by rw [hids]; rfl
    rw [hd, a4] at c3 c4
    rw [a2.pairs a3] at c3
    have hloop : insertLoop crosses info info.ids.length 0 t none none = ok (t2, some v, some p') := by
      rw [show info.ids.length = (info.ids.length - 1) + 1 by omega, insertLoop]
      simp only [at!, e1, e2, ok_bind, a1]
      exact c1
    have hz : ∀ u v, (u, v) ∈ (x :: rest).zip rest ↔ ∃ i : Nat, (x :: rest)[i]? = some u ∧ (x :: rest)[i + 1]? = some v := by
      intro u v
      constructor
      · intro h
        obtain ⟨i, hi⟩ := List.getElem?_of_mem h
        obtain ⟨h1, h2⟩ := List.getElem?_zip_eq_some.1 hi
        exact ⟨i, h1, by simpa using h2⟩
      · rintro ⟨i, h1, h2⟩
        exact List.mem_of_getElem? (List.getElem?_zip_eq_some.2 ⟨h1, by simpa using h2⟩)
    rw [hids] at hloop
    by_cases hlen : rest.length ≤ 1
    · have hnew : insertIntersection crosses t info = ok t2 := by
        unfold insertIntersection
        rw [hids, hloop]
        simp only [ok_bind, List.length_cons]
        rw [if_neg (by omega)]
      refine ⟨t2, _, hnew, c3, by simp [hlen], fun e => ?_⟩
      rcases Nat.lt_or_ge 0 rest.length with h1 | h1
      · obtain ⟨y, rfl⟩ : ∃ y, rest = [y] := List.length_eq_one_iff.1 (by omega)
        simp only [List.zip_cons_cons, List.zip_nil_right, List.mem_cons, List.not_mem_nil, or_false, Prod.mk.injEq, List.length_cons, List.length_nil]
        constructor
        · rintro ⟨u, v, ⟨rfl, rfl⟩, h⟩
          exact ⟨by omega, u, v, ⟨0, rfl, rfl⟩, h⟩
        · rintro ⟨-, u, v, ⟨i, h1, h2⟩, h⟩
          have hi : i < 2 := by simpa using (List.getElem?_eq_some_iff.1 h1).1
          rcases (by omega : i = 0 ∨ i = 1) with rfl | rfl
          · cases h1; cases h2; exact ⟨_, _, ⟨rfl, rfl⟩, h⟩
          · have h2 : some x = some v := by simpa using h2
            cases h1; cases h2; exact ⟨_, _, ⟨rfl, rfl⟩, ⟨h.1, h.2.symm⟩⟩
      · have : rest = [] := List.length_eq_zero_iff.1 (by omega)
        subst this; simp
    · obtain ⟨t3, d1, d2, d3⟩ := insertConstraint_spec hcr t2 p' v
      have hnew : insertIntersection crosses t info = ok t3 := by
        unfold insertIntersection
        rw [hids, hloop]
        simp only [ok_bind, List.length_cons]
        rw [if_pos (by omega)]
        exact d1
      refine ⟨t3, (x :: rest).zip rest ++ [(t2.info p', t2.info v)], hnew, by rw [d3, c3, List.append_assoc], ?_, fun e => ?_⟩
      · simp; omega
      · rw [c2.info, c2.info, a4]
        have hlast : (x :: rest)[rest.length]? = some (t.info p') := by
          rw [c4, List.getLast?_eq_getElem?]; simp
        constructor
        · rintro ⟨u, v, h, he⟩
          refine ⟨by simp; omega, u, v, ?_, he⟩
          rcases List.mem_append.1 h with h | h
          · obtain ⟨i, h1, h2⟩ := (hz u v).1 h
            have := (List.getElem?_eq_some_iff.1 h2).1
            exact ⟨i, h1, by rw [Nat.mod_eq_of_lt this]; exact h2⟩
          · simp only [List.mem_cons, List.not_mem_nil, or_false, Prod.mk.injEq] at h
            obtain ⟨rfl, rfl⟩ := h
            exact ⟨rest.length, hlast, by simp⟩
        · rintro ⟨-, u, v, ⟨i, h1, h2⟩, he⟩
          refine ⟨u, v, ?_, he⟩
          have hi := (List.getElem?_eq_some_iff.1 h1).1
          simp only [List.length_cons] at hi h2
          rw [List.mem_append]
          by_cases hlt : i + 1 < rest.length + 1
          · rw [Nat.mod_eq_of_lt hlt] at h2
            exact Or.inl ((hz u v).2 ⟨i, h1, h2⟩)
          · have : i = rest.length := by omega
            subst this
            rw [Nat.mod_self] at h2
            rw [hlast] at h1
            cases h1; cases h2
            exact Or.inr (by simp)

/-- For a record whose corners fit the face: unless CGAL reports crossing constraints, the constraints added are exactly the edges between cyclically consecutive corners
(with one edge for two corners and none for one). -/
theorem C63_constraints (crosses : Cdt → Vh → Vh → Bool) (t : Cdt) (info : Info) (hl : info.syms.length = info.ids.length)
    (hfit : ∀ (i : Nat) id sym, info.ids[i]? = some id → info.syms[i]? = some sym → Fits t id sym) :
    insertIntersection crosses t info = exn "Intersection_of_constraints_exception" ∨
    ∃ t' new, insertIntersection crosses t info = ok t' ∧ t'.pairs = t.pairs ++ new ∧ new.length = (if info.ids.length ≤ 2 then info.ids.length - 1 else info.ids.length) ∧
      ∀ e, (∃ u v, (u, v) ∈ new ∧ IsEdgeOf e u v) ↔ 2 ≤ info.ids.length ∧ ∃ u v, Follows info.ids u v ∧ IsEdgeOf e u v := by
  have hk : ∀ (t : Cdt) (i j : Vh), t.insertConstraint crosses i j = exn "Intersection_of_constraints_exception" ∨ t.insertConstraint crosses i j = t.insertConstraint (fun _ _ _ => false) i j := by
    intro t i j
    unfold Cdt.insertConstraint
    by_cases h : crosses t i j = true
    · left; rw [if_pos h]
    · right; rw [if_neg h]; simp
  have hloop : ∀ (n i : Nat) (t : Cdt) (f p : Option Vh), insertLoop crosses info n i t f p = exn "Intersection_of_constraints_exception" ∨ insertLoop crosses info n i t f p = insertLoop (fun _ _ _ => false) info n i t f p := by
    intro n
    induction n with
    | zero => intro i t f p; exact Or.inr rfl
    | succ n ih =>
      intro i t f p
      unfold insertLoop
      cases h1 : at! info.ids i with
      | exn e => exact Or.inr rfl
      | ub e => exact Or.inr rfl
      | ok id =>
        cases h2 : at! info.syms i with
        | exn e => exact Or.inr rfl
        | ub e => exact Or.inr rfl
        | ok sym =>
          simp only [ok_bind]
          cases h3 : t.insert id sym with
          | exn e => exact Or.inr rfl
          | ub e => exact Or.inr rfl
          | ok tv =>
            obtain ⟨t1, v⟩ := tv
            simp only [ok_bind]
            cases p with
            | none => simp only [ok_bind]; exact ih _ _ _ _
            | some p =>
              simp only
              rcases hk t1 p v with h | h
              · left; rw [h]; rfl
              · rw [h]
                cases t1.insertConstraint (fun _ _ _ => false) p v with
                | exn e => exact Or.inr rfl
                | ub e => exact Or.inr rfl
                | ok t2 => simp only [ok_bind]; exact ih _ _ _ _
  have hall : insertIntersection crosses t info = exn "Intersection_of_constraints_exception" ∨ insertIntersection crosses t info = insertIntersection (fun _ _ _ => false) t info := by
    unfold insertIntersection
    rcases hloop info.ids.length 0 t none none with h | h
    · left; rw [h]; rfl
    · rw [h]
      cases insertLoop (fun _ _ _ => false) info info.ids.length 0 t none none with
      | exn e => exact Or.inr rfl
      | ub e => exact Or.inr rfl
      | ok x =>
        obtain ⟨t', f, p⟩ := x
        simp only [ok_bind]
        by_cases hn : info.ids.length > 2
        · rw [if_pos hn, if_pos hn]
          cases p with
          | none => exact Or.inr rfl
          | some p => cases f with
            | none => exact Or.inr rfl
            | some f => exact hk _ _ _
        · rw [if_neg hn, if_neg hn]; exact Or.inr rfl
  rcases hall with h | h
  · exact Or.inl h
  · right; rw [h]; exact noCross_constraints _ (fun _ _ _ => rfl) t info hl hfit

/-- A triangle of intersection corners: a corner of the face, a point on its first edge and one inside. -/
example : (insertIntersection (fun _ _ _ => false) (Cdt.new Region.LF 10 11 12) ⟨0, 0, [Region.hull Region.LV0 Region.RF, Region.hull Region.LE01 Region.RE12, Region.hull Region.LF Region.RV2], [10, 20, 30]⟩).bind (fun t => ok t.pairs) =
    ok [(10, 20), (20, 30), (30, 10)] := by decide +kernel
example : intersectingEdges [⟨0, 0, [], [10, 20, 30]⟩, ⟨0, 1, [], [20, 10]⟩, ⟨1, 1, [], [7]⟩] [] = ok [(10, 20), (20, 30), (10, 30)] := by decide +kernel

/-! ### The mixed soup -/

variable {D : Type}

/-- What face number `fi` of an operand becomes: the finite faces of its triangulation or the face itself. -/
def Pieces (finite : Cdt → List (Tri Nat)) (faces : List (Tri Nat)) (m : Slots) (ids : List Nat) (fi : Nat) (ps : List (Tri Nat)) : Prop :=
  (∃ t, m fi = some (some t) ∧ ps = finite t) ∨ (m fi = none ∧ ∃ f a b c, faces[fi]? = some f ∧ ids[f.a]? = some a ∧ ids[f.b]? = some b ∧ ids[f.c]? = some c ∧ ps = [⟨a, b, c⟩])

theorem getFaces_ok {finite : Cdt → List (Tri Nat)} {faces : List (Tri Nat)} {m : Slots} {ids : List Nat} (hv : ∀ f ∈ faces, ∀ v ∈ f.toList, v < ids.length) (hm : ∀ fi, m fi ≠ some none)
    {fi : Nat} (hfi : fi < faces.length) : ∃ ps, getFaces finite faces m ids fi = ok ps ∧ Pieces finite faces m ids fi ps := by
  unfold getFaces Pieces
  cases h : m fi with
  | some v =>
    cases v with
    | none => exact absurd h (hm fi)
    | some t => exact ⟨_, rfl, Or.inl ⟨t, rfl, rfl⟩⟩
  | none =>
    have hf := hv _ (List.getElem_mem hfi)
    have ha := hf faces[fi].a (by simp [Tri.toList])
    have hb := hf faces[fi].b (by simp [Tri.toList])
    have hc := hf faces[fi].c (by simp [Tri.toList])
    refine ⟨[⟨ids[faces[fi].a], ids[faces[fi].b], ids[faces[fi].c]⟩], ?_, Or.inr ⟨rfl, _, _, _, _, List.getElem?_eq_getElem hfi, List.getElem?_eq_getElem ha, List.getElem?_eq_getElem hb, List.getElem?_eq_getElem hc, rfl⟩⟩
    simp only [at!, List.getElem?_eq_getElem hfi, List.getElem?_eq_getElem ha, List.getElem?_eq_getElem hb, List.getElem?_eq_getElem hc, ok_bind]

theorem assemble_ok (fromLeft : Bool) {finite : Cdt → List (Tri Nat)} {faces : List (Tri Nat)} {m : Slots} {ids : List Nat} {tags : List Tag} {data : List D}
    (hv : ∀ f ∈ faces, ∀ v ∈ f.toList, v < ids.length) (hm : ∀ fi, m fi ≠ some none) (ht : tags.length = faces.length) (hd : data.length = faces.length) :
    ∀ (fis : List Nat), (∀ fi ∈ fis, fi < faces.length) → ∃ parts : List (Nat × List (Tri Nat) × MixedData D), parts.map Prod.fst = fis ∧
      (∀ x ∈ parts, Pieces finite faces m ids x.1 x.2.1 ∧ x.2.2.fromLeft = fromLeft ∧ tags[x.1]? = some x.2.2.tag ∧ data[x.1]? = some x.2.2.data) ∧
      ∀ fs ds, assemble fromLeft finite faces m ids tags data fis fs ds = ok (fs ++ parts.flatMap (fun x => x.2.1), ds ++ parts.flatMap (fun x => List.replicate x.2.1.length x.2.2)) := by
  intro fis
  induction fis with
  | nil => intro _; exact ⟨[], rfl, by simp, fun fs ds => by simp [assemble]⟩
  | cons fi fis ih =>
    intro hb
    have hfi := hb fi (by simp)
    obtain ⟨parts, p1, p2, p3⟩ := ih (fun k hk => hb k (by simp [hk]))
    obtain ⟨ps, q1, q2⟩ := getFaces_ok (finite := finite) hv hm hfi
    have h1 : fi < tags.length := by omega
    have h2 : fi < data.length := by omega
    refine ⟨(fi, ps, ⟨fromLeft, tags[fi], data[fi]⟩) :: parts, by simp [p1], ?_, fun fs ds => ?_⟩
    · intro x hx
      rcases List.mem_cons.1 hx with rfl | hx
      · exact ⟨q2, rfl, List.getElem?_eq_getElem h1, List.getElem?_eq_getElem h2⟩
      · exact p2 x hx
    · rw [assemble]
      simp only [at!, List.getElem?_eq_getElem h1, List.getElem?_eq_getElem h2, ok_bind, q1, p3]
      simp

/-- The mixed soup consists of the pieces of the left faces followed by the pieces of the right faces, in the order of the faces.  Every piece carries its operand and the tag and the data of its face,
and there is exactly one record per face. -/
theorem C62_assembly (finite : Cdt → List (Tri Nat)) (left right : List (Tri Nat)) (lm rm : Slots) (lids rids : List Nat) (ltags rtags : List Tag) (ldata rdata : List D)
    (hl : ∀ f ∈ left, ∀ v ∈ f.toList, v < lids.length) (hr : ∀ f ∈ right, ∀ v ∈ f.toList, v < rids.length) (hlm : ∀ fi, lm fi ≠ some none) (hrm : ∀ fi, rm fi ≠ some none)
    (hlt : ltags.length = left.length) (hrt : rtags.length = right.length) (hld : ldata.length = left.length) (hrd : rdata.length = right.length) :
    ∃ lp rp : List (Nat × List (Tri Nat) × MixedData D),
      mixedFaces finite left right lm rm lids rids ltags rtags ldata rdata =
        ok ((lp ++ rp).flatMap (fun x => x.2.1), (lp ++ rp).flatMap (fun x => List.replicate x.2.1.length x.2.2)) ∧
      lp.map Prod.fst = List.range left.length ∧ rp.map Prod.fst = List.range right.length ∧
      (∀ x ∈ lp, Pieces finite left lm lids x.1 x.2.1 ∧ x.2.2.fromLeft = true ∧ ltags[x.1]? = some x.2.2.tag ∧ ldata[x.1]? = some x.2.2.data) ∧
      (∀ x ∈ rp, Pieces finite right rm rids x.1 x.2.1 ∧ x.2.2.fromLeft = false ∧ rtags[x.1]? = some x.2.2.tag ∧ rdata[x.1]? = some x.2.2.data) ∧
      ((lp ++ rp).flatMap (fun x => x.2.1)).length = ((lp ++ rp).flatMap (fun x => List.replicate x.2.1.length x.2.2)).length := by
  obtain ⟨lp, a1, a2, a3⟩ := assemble_ok true (finite := finite) hl hlm hlt hld (List.range left.length) (by simp)
  obtain ⟨rp, b1, b2, b3⟩ := assemble_ok false (finite := finite) hr hrm hrt hrd (List.range right.length) (by simp)
  refine ⟨lp, rp, ?_, a1, b1, a2, b2, ?_⟩
  · unfold mixedFaces
    rw [a3, ok_bind]
    dsimp only
    rw [b3]
    simp [List.flatMap_append]
  · generalize lp ++ rp = l
    induction l with
    | nil => rfl
    | cons x l ih => simp only [List.flatMap_cons, List.length_append, List.length_replicate, ih]

/-- The triangulations left by the parallel loops have no empty entries, so that assembling cannot throw. -/
theorem C62_no_empty_entry (crosses : Cdt → Vh → Vh → Bool) (fc : Region.Code) (key : Info → Nat) (faces : List (Tri Nat)) (ids : List Nat) (infos sorted : List Info)
    (hp : sorted.Perm infos) (hs : sorted.Pairwise (fun x y => ¬ key y < key x)) {configured hardware : Nat} (hc : 1 ≤ configured) {r : ParallelDo.Result String Unit}
    (hr : ParallelDo.Returns (buildLoop crosses fc key faces ids (ranges key sorted)) configured hardware () r) (he : r.exc = none) (fi : Nat) :
    store crosses fc key faces ids (ranges key sorted) r.log (emplaceAll key (ranges key sorted) (fun _ => none)) fi ≠ some none := by
  obtain ⟨h1, h2⟩ := C65_grouping crosses fc key faces ids infos sorted hp hs hc hr he fi
  by_cases h : ∃ x ∈ infos, key x = fi
  · obtain ⟨_, _, _, _, _, t, -, -, -, -, -, -, e⟩ := h2 h
    rw [e]; simp
  · rw [h1 h]; simp

/-- A missing triangulation is not passed over: assembling the faces of an operand throws exactly if there is an empty entry for one of them. -/
theorem C62_missing (fromLeft : Bool) {finite : Cdt → List (Tri Nat)} {faces : List (Tri Nat)} {m : Slots} {ids : List Nat} {tags : List Tag} {data : List D}
    (hv : ∀ f ∈ faces, ∀ v ∈ f.toList, v < ids.length) (ht : tags.length = faces.length) (hd : data.length = faces.length) (fis : List Nat) (hb : ∀ fi ∈ fis, fi < faces.length) (fs : List (Tri Nat)) (ds : List (MixedData D)) :
    assemble fromLeft finite faces m ids tags data fis fs ds = exn "bad_optional_access" ↔ ∃ fi ∈ fis, m fi = some none := by
  induction fis generalizing fs ds with
  | nil => simp [assemble]
  | cons fi fis ih =>
    have hfi := hb fi (by simp)
    have h1 : fi < tags.length := by omega
    have h2 : fi < data.length := by omega
    rw [assemble]
    simp only [at!, List.getElem?_eq_getElem h1, ok_bind, List.mem_cons, exists_eq_or_imp]
    by_cases hm : m fi = some none
    · simp [getFaces, hm]
    · obtain ⟨ps, q1, -⟩ := getFaces_ok (m := fun k => if k = fi then m fi else none) (finite := finite) hv (by intro k; split <;> simp_all) hfi
      have e : getFaces finite faces m ids fi = ok ps := by rw [← q1]; simp [getFaces]
      simp only [e, ok_bind, List.getElem?_eq_getElem h2, hm, false_or]
      exact ih (fun k hk => hb k (by simp [hk])) _ _

example : mixedFaces (D := Nat) (fun _ => [⟨0, 1, 9⟩, ⟨1, 2, 9⟩]) [⟨0, 1, 2⟩, ⟨0, 2, 1⟩] [⟨0, 1, 2⟩] (fun i => if i = 1 then some (some (Cdt.new 7 0 1 2)) else none) (fun _ => none)
      [5, 6, 7] [6, 7, 8] [.unknown, .unknown] [.coplanar] [100, 200] [300] =
    ok ([⟨5, 6, 7⟩, ⟨0, 1, 9⟩, ⟨1, 2, 9⟩, ⟨6, 7, 8⟩], [⟨true, .unknown, 100⟩, ⟨true, .unknown, 200⟩, ⟨true, .unknown, 200⟩, ⟨false, .coplanar, 300⟩]) := by decide +kernel

end Kigumi.Props
