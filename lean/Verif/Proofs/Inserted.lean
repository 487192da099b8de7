import Verif.Proofs.Operands

/-! # The points of the records -/
namespace Kigumi.Corefine
open Kigumi Outcome Geo Spec.Triangles Spec.Side
open Kigumi.Spec (SameTri HasCorners FaceCorners)
open Kigumi.Side (Ok ok_of_proper)
open Kigumi.Cutting (Q)
variable {op : Bool → List (Tri P3)} {D : Type} {s : Bool → Soup P3 D}

/-! ## Corners that span the face with a given point inside -/

/-- The corner `v` has a positive weight. -/
def Supports (k0 k1 k2 : Bool) (t : Tri P3) (v : P3) : Prop := (k0 = true ∧ v = t.a) ∨ (k1 = true ∧ v = t.b) ∨ (k2 = true ∧ v = t.c)

theorem weight_ne {k : Bool} {m : ℚ} (h : Weight k m) : k = true ↔ m ≠ 0 := by
  cases k
  · have h' : m = 0 := by simpa [Weight] using h
    simp [h']
  · simp only [Weight, if_true] at h; simp [h.ne']

theorem weight_nonneg {k : Bool} {m : ℚ} (h : Weight k m) : 0 ≤ m := by
  cases k
  · exact le_of_eq (by simpa [Weight] using h.symm)
  · exact le_of_lt (by simpa [Weight] using h)

theorem complex_single {t : Tri P3} (ht : Proper t) : Complex [t] where
  proper u hu := by rw [List.mem_singleton.1 hu]; exact ht
  meet u hu v hv x h1 h2 := by
    rw [List.mem_singleton.1 hu] at h1 ⊢
    rw [List.mem_singleton.1 hv]
    obtain ⟨w0, w1, w2, hs, hx, p0, p1, p2⟩ := h1
    exact ⟨w0, w1, w2, hs, hx, p0, p1, p2, fun _ => by simp [Tri.toList], fun _ => by simp [Tri.toList], fun _ => by simp [Tri.toList]⟩

theorem supports_sub {W : List (Tri P3)} (hW : Complex W) {t u : Tri P3} (ht : t ∈ W) (hu : u ∈ W) {k0 k1 k2 m0 m1 m2 : Bool} {x v : P3} (h1 : Open k0 k1 k2 t.a t.b t.c x) (h2 : Open m0 m1 m2 u.a u.b u.c x)
    (hv : Supports k0 k1 k2 t v) : Supports m0 m1 m2 u v := by
  obtain ⟨w0, w1, w2, hs, hx, p0, p1, p2, c0, c1, c2⟩ := hW.meet t ht u hu x (Cutting.open_in h1) (Cutting.open_in h2)
  obtain ⟨a0, a1, a2, hs1, hx1, b0, b1, b2⟩ := h1
  obtain ⟨e0, e1, e2, hs2, hx2, f0, f1, f2⟩ := h2
  obtain ⟨rfl, rfl, rfl⟩ := FaceFace.weights_unique (ok_of_proper (hW.proper t ht)) hs hs1 (hx.symm.trans hx1)
  have hmem : ∀ y, y ∈ u.toList ↔ y = u.a ∨ y = u.b ∨ y = u.c := fun y => by simp [Tri.toList]
  have hd := distinct_corners (ok_of_proper (hW.proper u hu))
  -- one corner of `t` as a combination of the corners of `u`
  have one : ∀ (w : ℚ) (y : P3), 0 ≤ w → (w ≠ 0 → y ∈ u.toList) → ∃ g0 g1 g2 : ℚ, g0 + g1 + g2 = w ∧ 0 ≤ g0 ∧ 0 ≤ g1 ∧ 0 ≤ g2 ∧
      w * y.x = g0 * u.a.x + g1 * u.b.x + g2 * u.c.x ∧ w * y.y = g0 * u.a.y + g1 * u.b.y + g2 * u.c.y ∧ w * y.z = g0 * u.a.z + g1 * u.b.z + g2 * u.c.z ∧
      (w ≠ 0 → (y = u.a ∧ g0 = w) ∨ (y = u.b ∧ g1 = w) ∨ (y = u.c ∧ g2 = w)) := by
    intro w y hw hy
    by_cases h0 : w = 0
    · exact ⟨0, 0, 0, by rw [h0]; norm_num, le_refl _, le_refl _, le_refl _, by rw [h0]; ring, by rw [h0]; ring, by rw [h0]; ring, fun h => absurd h0 h⟩
    · rcases (hmem y).1 (hy h0) with rfl | rfl | rfl
      · exact ⟨w, 0, 0, by ring, hw, le_refl _, le_refl _, by ring, by ring, by ring, fun _ => .inl ⟨rfl, rfl⟩⟩
      · exact ⟨0, w, 0, by ring, le_refl _, hw, le_refl _, by ring, by ring, by ring, fun _ => .inr (.inl ⟨rfl, rfl⟩)⟩
      · exact ⟨0, 0, w, by ring, le_refl _, le_refl _, hw, by ring, by ring, by ring, fun _ => .inr (.inr ⟨rfl, rfl⟩)⟩
  obtain ⟨g0, g1, g2, gs, g0n, g1n, g2n, gx, gy, gz, gc⟩ := one w0 t.a p0 c0
  obtain ⟨i0, i1, i2, is, i0n, i1n, i2n, ix, iy, iz, ic⟩ := one w1 t.b p1 c1
  obtain ⟨j0, j1, j2, js, j0n, j1n, j2n, jx, jy, jz, jc⟩ := one w2 t.c p2 c2
  have hcomb : combo (g0 + i0 + j0) (g1 + i1 + j1) (g2 + i2 + j2) u.a u.b u.c = combo e0 e1 e2 u.a u.b u.c := by
    rw [← hx2, hx]
    apply FaceFace.p3_ext <;> simp only [combo] <;> linarith
  obtain ⟨q0, q1, q2⟩ := FaceFace.weights_unique (ok_of_proper (hW.proper u hu)) (by linarith) hs2 hcomb
  have pos : ∀ {w g0' g1' g2' : ℚ} {y : P3}, 0 ≤ w → w ≠ 0 → g0' ≤ e0 → g1' ≤ e1 → g2' ≤ e2 → ((y = u.a ∧ g0' = w) ∨ (y = u.b ∧ g1' = w) ∨ (y = u.c ∧ g2' = w)) → Supports m0 m1 m2 u y := by
    intro w g0' g1' g2' y hw hne l0 l1 l2 h
    have hp : 0 < w := lt_of_le_of_ne hw (Ne.symm hne)
    rcases h with ⟨rfl, rfl⟩ | ⟨rfl, rfl⟩ | ⟨rfl, rfl⟩
    · exact .inl ⟨(weight_ne f0).2 (by linarith), rfl⟩
    · exact .inr (.inl ⟨(weight_ne f1).2 (by linarith), rfl⟩)
    · exact .inr (.inr ⟨(weight_ne f2).2 (by linarith), rfl⟩)
  rcases hv with ⟨hk, rfl⟩ | ⟨hk, rfl⟩ | ⟨hk, rfl⟩
  · exact pos p0 ((weight_ne b0).1 hk) (by linarith) (by linarith) (by linarith) (gc ((weight_ne b0).1 hk))
  · exact pos p1 ((weight_ne b1).1 hk) (by linarith) (by linarith) (by linarith) (ic ((weight_ne b1).1 hk))
  · exact pos p2 ((weight_ne b2).1 hk) (by linarith) (by linarith) (by linarith) (jc ((weight_ne b2).1 hk))

/-- The ids of the corners with positive weight. -/
theorem vertices_mem {pts : List P3} {x : Tri Nat} {t : Tri P3} (hx : Refers pts x t) {off code i : Nat} : i ∈ vertices off code x.a x.b x.c ↔
    (code.testBit off = true ∧ i = x.a) ∨ (code.testBit (off + 1) = true ∧ i = x.b) ∨ (code.testBit (off + 2) = true ∧ i = x.c) := by
  unfold vertices
  cases code.testBit off <;> cases code.testBit (off + 1) <;> cases code.testBit (off + 2) <;> simp

theorem same_vertices {pts : List P3} (hn : pts.Nodup) {W : List (Tri P3)} (hW : Complex W) {t u : Tri P3} (ht : t ∈ W) (hu : u ∈ W) {x y : Tri Nat} (hx : Refers pts x t) (hy : Refers pts y u) {off code code' : Nat} {w : P3}
    (h1 : Relint off code t.a t.b t.c w) (h2 : Relint off code' u.a u.b u.c w) : SameSet (vertices off code x.a x.b x.c) (vertices off code' y.a y.b y.c) := by
  have half : ∀ {t u : Tri P3} {x y : Tri Nat} {code code' : Nat}, t ∈ W → u ∈ W → Refers pts x t → Refers pts y u → Relint off code t.a t.b t.c w → Relint off code' u.a u.b u.c w →
      ∀ i, i ∈ vertices off code x.a x.b x.c → i ∈ vertices off code' y.a y.b y.c := by
    intro t u x y code code' ht hu hx hy h1 h2 i hi
    have hs : ∃ v, pts[i]? = some v ∧ Supports (code.testBit off) (code.testBit (off + 1)) (code.testBit (off + 2)) t v := by
      rcases (vertices_mem hx).1 hi with ⟨hb, rfl⟩ | ⟨hb, rfl⟩ | ⟨hb, rfl⟩
      · exact ⟨_, hx.1, .inl ⟨hb, rfl⟩⟩
      · exact ⟨_, hx.2.1, .inr (.inl ⟨hb, rfl⟩)⟩
      · exact ⟨_, hx.2.2, .inr (.inr ⟨hb, rfl⟩)⟩
    obtain ⟨v, hv, hs⟩ := hs
    rcases supports_sub hW ht hu h1 h2 hs with ⟨hb, rfl⟩ | ⟨hb, rfl⟩ | ⟨hb, rfl⟩
    · exact (vertices_mem hy).2 (.inl ⟨hb, get_inj hn hv hy.1⟩)
    · exact (vertices_mem hy).2 (.inr (.inl ⟨hb, get_inj hn hv hy.2.1⟩))
    · exact (vertices_mem hy).2 (.inr (.inr ⟨hb, get_inj hn hv hy.2.2⟩))
  exact fun i => ⟨half ht hu hx hy h1 h2 i, half hu ht hy hx h2 h1 i⟩

/-! ## Calls -/

/-- The calls for a record. -/
def callsOf (s : Bool → Soup P3 D) (x : Info) : List PointInserter.Call :=
  match faceIds (s true).faces (idsOf s true) x.left, faceIds (s false).faces (idsOf s false) x.right with
  | ok l, ok r => x.syms.map fun c => ⟨c, l, r⟩
  | _, _ => []

theorem callsOf_eq {x : Info} {l r : Tri Nat} (hl : faceIds (s true).faces (idsOf s true) x.left = ok l) (hr : faceIds (s false).faces (idsOf s false) x.right = ok r) : callsOf s x = x.syms.map fun c => ⟨c, l, r⟩ := by
  unfold callsOf; rw [hl, hr]

theorem run_append (K : PointInserter.Kernel) (xs ys : List PointInserter.Call) (st : PointInserter.State) :
    PointInserter.run K st (xs ++ ys) = (PointInserter.run K st xs).bind fun z => (PointInserter.run K z.1 ys).bind fun z' => ok (z'.1, z.2 ++ z'.2) := by
  induction xs generalizing st with
  | nil =>
    show PointInserter.run K st ys = (PointInserter.run K st ys).bind fun z' => ok (z'.1, [] ++ z'.2)
    cases PointInserter.run K st ys <;> rfl
  | cons x xs ih =>
    show ((PointInserter.call K st x).bind fun z => (PointInserter.run K z.1 (xs ++ ys)).bind fun z' => ok (z'.1, z.2 :: z'.2)) = ((PointInserter.call K st x).bind fun z => (PointInserter.run K z.1 xs).bind fun z' => ok (z'.1, z.2 :: z'.2)).bind _
    cases PointInserter.call K st x with
    | ok z =>
      show ((PointInserter.run K z.1 (xs ++ ys)).bind fun z' => ok (z'.1, z.2 :: z'.2)) = ((PointInserter.run K z.1 xs).bind fun z' => ok (z'.1, z.2 :: z'.2)).bind _
      rw [ih]
      cases PointInserter.run K z.1 xs with
      | ok z1 =>
        show ((PointInserter.run K z1.1 ys).bind fun z' => ok (z'.1, z1.2 ++ z'.2)).bind _ = (PointInserter.run K z1.1 ys).bind _
        cases PointInserter.run K z1.1 ys <;> rfl
      | exn => rfl
      | ub => rfl
    | exn => rfl
    | ub => rfl

theorem run_length {K : PointInserter.Kernel} {xs : List PointInserter.Call} {st st' : PointInserter.State} {ids : List Nat} (h : PointInserter.run K st xs = ok (st', ids)) : ids.length = xs.length := by
  induction xs generalizing st ids with
  | nil => cases h; rfl
  | cons x xs ih =>
    have h' : ((PointInserter.call K st x).bind fun z => (PointInserter.run K z.1 xs).bind fun z' => ok (z'.1, z.2 :: z'.2)) = ok (st', ids) := h
    cases hc : PointInserter.call K st x with
    | ok z =>
      rw [hc] at h'
      have h' : ((PointInserter.run K z.1 xs).bind fun z' => ok (z'.1, z.2 :: z'.2)) = ok (st', ids) := h'
      cases hr : PointInserter.run K z.1 xs with
      | ok z1 =>
        rw [hr] at h'
        have h' : (ok (z1.1, z.2 :: z1.2) : Outcome _) = ok (st', ids) := h'
        cases h'
        rw [List.length_cons, List.length_cons, ih hr]
      | exn => rw [hr] at h'; cases h'
      | ub => rw [hr] at h'; cases h'
    | exn => rw [hc] at h'; cases h'
    | ub => rw [hc] at h'; cases h'

theorem run_get {K : PointInserter.Kernel} {xs : List PointInserter.Call} {st st' : PointInserter.State} {ids : List Nat} (h : PointInserter.run K st xs = ok (st', ids)) {n : Nat} {x : PointInserter.Call} {id : Nat}
    (hx : xs[n]? = some x) (hi : ids[n]? = some id) : ∃ st0 st1, PointInserter.call K st0 x = ok (st1, id) := by
  induction xs generalizing st ids n with
  | nil => cases hx
  | cons y xs ih =>
    have h' : ((PointInserter.call K st y).bind fun z => (PointInserter.run K z.1 xs).bind fun z' => ok (z'.1, z.2 :: z'.2)) = ok (st', ids) := h
    cases hc : PointInserter.call K st y with
    | ok z =>
      rw [hc] at h'
      have h' : ((PointInserter.run K z.1 xs).bind fun z' => ok (z'.1, z.2 :: z'.2)) = ok (st', ids) := h'
      cases hr : PointInserter.run K z.1 xs with
      | ok z1 =>
        rw [hr] at h'
        have h' : (ok (z1.1, z.2 :: z1.2) : Outcome _) = ok (st', ids) := h'
        cases h'
        cases n with
        | zero => cases hx; cases hi; exact ⟨st, z.1, hc⟩
        | succ n => exact ih hr hx hi
      | exn => rw [hr] at h'; cases h'
      | ub => rw [hr] at h'; cases h'
    | exn => rw [hc] at h'; cases h'
    | ub => rw [hc] at h'; cases h'

/-- A record with its ids: those given by consecutive calls. -/
def Filled (s : Bool → Soup P3 D) (all : List PointInserter.Call) (ids : List Nat) (x y : Info) : Prop :=
  y.left = x.left ∧ y.right = x.right ∧ y.syms = x.syms ∧ y.ids.length = x.syms.length ∧ ∃ k, ∀ i < x.syms.length, all[k + i]? = (callsOf s x)[i]? ∧ y.ids[i]? = ids[k + i]?

theorem constructPoints_run {K : PointInserter.Kernel} {infos : List Info} : ∀ {st st' : PointInserter.State} {ids : List Nat}, (∀ x ∈ infos, x.ids = []) →
    (∀ x ∈ infos, ∃ l r, faceIds (s true).faces (idsOf s true) x.left = ok l ∧ faceIds (s false).faces (idsOf s false) x.right = ok r) →
    PointInserter.run K st (infos.flatMap (callsOf s)) = ok (st', ids) →
    ∃ out, constructPoints K (s true).faces (s false).faces (idsOf s true) (idsOf s false) st infos = ok (st', out) ∧ List.Forall₂ (Filled s (infos.flatMap (callsOf s)) ids) infos out := by
  induction infos with
  | nil => intro st st' ids _ _ h; cases h; exact ⟨[], rfl, .nil⟩
  | cons x xs ih =>
    intro st st' ids hn hx h
    obtain ⟨l, r, hl, hr⟩ := hx x (by simp)
    rw [List.flatMap_cons, run_append] at h
    cases h1 : PointInserter.run K st (callsOf s x) with
    | exn => rw [h1] at h; cases h
    | ub => rw [h1] at h; cases h
    | ok z =>
      rw [h1] at h
      have h : ((PointInserter.run K z.1 (xs.flatMap (callsOf s))).bind fun z' => ok (z'.1, z.2 ++ z'.2)) = ok (st', ids) := h
      cases h2 : PointInserter.run K z.1 (xs.flatMap (callsOf s)) with
      | exn => rw [h2] at h; cases h
      | ub => rw [h2] at h; cases h
      | ok z' =>
        rw [h2] at h
        have h : (ok (z'.1, z.2 ++ z'.2) : Outcome _) = ok (st', ids) := h
        cases h
        obtain ⟨out, e, hf⟩ := ih (fun y hy => hn y (by simp [hy])) (fun y hy => hx y (by simp [hy])) h2
        have lc : (callsOf s x).length = x.syms.length := by rw [callsOf_eq hl hr, List.length_map]
        have lz : z.2.length = x.syms.length := by rw [run_length h1, lc]
        refine ⟨{ x with ids := x.ids ++ z.2 } :: out, ?_, .cons ?_ ?_⟩
        · show ((faceIds (s true).faces (idsOf s true) x.left).bind fun l => (faceIds (s false).faces (idsOf s false) x.right).bind fun r => (PointInserter.run K st (x.syms.map fun c => ⟨c, l, r⟩)).bind fun z =>
            (constructPoints K (s true).faces (s false).faces (idsOf s true) (idsOf s false) z.1 xs).bind fun z' => ok (z'.1, { x with ids := x.ids ++ z.2 } :: z'.2)) = _
          rw [hl, hr]
          show ((PointInserter.run K st (x.syms.map fun c => ⟨c, l, r⟩)).bind fun z => (constructPoints K (s true).faces (s false).faces (idsOf s true) (idsOf s false) z.1 xs).bind fun z' => ok (z'.1, { x with ids := x.ids ++ z.2 } :: z'.2)) = _
          rw [← callsOf_eq hl hr, h1]
          show ((constructPoints K (s true).faces (s false).faces (idsOf s true) (idsOf s false) z.1 xs).bind fun z' => ok (z'.1, { x with ids := x.ids ++ z.2 } :: z'.2)) = _
          rw [e]; rfl
        · have hnil := hn x (by simp)
          refine ⟨rfl, rfl, rfl, by simp [hnil, lz], 0, fun i hi => ?_⟩
          rw [Nat.zero_add, List.flatMap_cons, List.getElem?_append_left (by omega)]
          refine ⟨rfl, ?_⟩
          simp only [hnil, List.nil_append]
          rw [List.getElem?_append_left (by omega)]
        · refine hf.imp ?_
          rintro a b ⟨a1, a2, a3, a4, k, hk⟩
          refine ⟨a1, a2, a3, a4, x.syms.length + k, fun i hi => ?_⟩
          rw [List.flatMap_cons, List.getElem?_append_right (by omega), List.getElem?_append_right (by omega)]
          have e1 : x.syms.length + k + i - (callsOf s x).length = k + i := by omega
          have e2 : x.syms.length + k + i - z.2.length = k + i := by omega
          rw [e1, e2]
          exact hk i hi

/-! ## Codes and vertices -/

/-- The corner of the triangle that the bits of one triangle stand for. -/
theorem single_left (code : Nat) (h : code < 64) : (Region.inter code Region.LF = Region.LV0 ↔ code.testBit 0 = true ∧ code.testBit 1 = false ∧ code.testBit 2 = false) ∧
    (Region.inter code Region.LF = Region.LV1 ↔ code.testBit 0 = false ∧ code.testBit 1 = true ∧ code.testBit 2 = false) ∧
    (Region.inter code Region.LF = Region.LV2 ↔ code.testBit 0 = false ∧ code.testBit 1 = false ∧ code.testBit 2 = true) ∧
    (Region.inter code Region.LF ≠ Region.RV0 ∧ Region.inter code Region.LF ≠ Region.RV1 ∧ Region.inter code Region.LF ≠ Region.RV2) ∧
    ((code.testBit 0 || code.testBit 1 || code.testBit 2) = true → Region.inter code Region.LF ∈ [Region.LV0, Region.LV1, Region.LV2, Region.LE01, Region.LE12, Region.LE20, Region.LF]) := by
  revert h code
  decide

theorem single_right (code : Nat) (h : code < 64) : (Region.inter code Region.RF = Region.RV0 ↔ code.testBit 3 = true ∧ code.testBit 4 = false ∧ code.testBit 5 = false) ∧
    (Region.inter code Region.RF = Region.RV1 ↔ code.testBit 3 = false ∧ code.testBit 4 = true ∧ code.testBit 5 = false) ∧
    (Region.inter code Region.RF = Region.RV2 ↔ code.testBit 3 = false ∧ code.testBit 4 = false ∧ code.testBit 5 = true) ∧
    (Region.inter code Region.RF ≠ Region.LV0 ∧ Region.inter code Region.RF ≠ Region.LV1 ∧ Region.inter code Region.RF ≠ Region.LV2) ∧
    ((code.testBit 3 || code.testBit 4 || code.testBit 5) = true → Region.inter code Region.RF ∈ [Region.RV0, Region.RV1, Region.RV2, Region.RE01, Region.RE12, Region.RE20, Region.RF]) := by
  revert h code
  decide

theorem some_bit {off code : Nat} {a b c w : P3} (h : Relint off code a b c w) : (code.testBit off || code.testBit (off + 1) || code.testBit (off + 2)) = true := by
  obtain ⟨w0, w1, w2, hs, -, h0, h1, h2⟩ := h
  by_contra hn
  simp only [Bool.or_eq_true, not_or, Bool.not_eq_true] at hn
  obtain ⟨⟨e0, e1⟩, e2⟩ := hn
  rw [e0] at h0; rw [e1] at h1; rw [e2] at h2
  simp [Weight] at h0 h1 h2
  rw [h0, h1, h2] at hs
  norm_num at hs

/-- The relative interior of a vertex is the vertex. -/
theorem open_vertex {t : Tri P3} {w : P3} : (Open true false false t.a t.b t.c w → w = t.a) ∧ (Open false true false t.a t.b t.c w → w = t.b) ∧ (Open false false true t.a t.b t.c w → w = t.c) := by
  refine ⟨?_, ?_, ?_⟩
  all_goals
    rintro ⟨w0, w1, w2, hs, rfl, h0, h1, h2⟩
    simp [Weight] at h0 h1 h2
    subst_vars
    apply FaceFace.p3_ext <;> simp only [combo]
  · have : w0 = 1 := by linarith
    subst this; ring
  · have : w0 = 1 := by linarith
    subst this; ring
  · have : w0 = 1 := by linarith
    subst this; ring
  · have : w1 = 1 := by linarith
    subst this; ring
  · have : w1 = 1 := by linarith
    subst this; ring
  · have : w1 = 1 := by linarith
    subst this; ring
  · have : w2 = 1 := by linarith
    subst this; ring
  · have : w2 = 1 := by linarith
    subst this; ring
  · have : w2 = 1 := by linarith
    subst this; ring

/-! ## All points -/

/-- A record with its points. -/
structure Pointed (op : Bool → List (Tri P3)) (s : Bool → Soup P3 D) (pts : List P3) (x : Info) (t u : Tri P3) (l r : Tri Nat) : Prop extends Recorded op s x t u l r where
  length : x.ids.length = x.syms.length
  corner : ∀ (i : Nat) code id, x.syms[i]? = some code → x.ids[i]? = some id → ∃ w, pts[id]? = some w ∧ IsCorner t.a t.b t.c u.a u.b u.c code w
  fitsL : ∀ (i : Nat) id code, x.ids[i]? = some id → x.syms[i]? = some code → Fits (Cdt.new Region.LF l.a l.b l.c) id code
  fitsR : ∀ (i : Nat) id code, x.ids[i]? = some id → x.syms[i]? = some code → Fits (Cdt.new Region.RF r.a r.b r.c) id code

/-- The records with the points. -/
structure Points (op : Bool → List (Tri P3)) (s : Bool → Soup P3 D) (pts : List P3) (infos : List Info) : Prop where
  more : ∃ new, pts = base s ++ new
  records : ∀ x ∈ infos, ∃ t u l r, Pointed op s pts x t u l r
  complete : ∀ (i j : Nat) (t u : Tri P3) (y : P3), (op true)[i]? = some t → (op false)[j]? = some u → ¬ Coincides op true t → ¬ Coincides op false u → In t y → In u y → ∃ x ∈ infos, x.left = i ∧ x.right = j
  inj : ∀ x ∈ infos, ∀ y ∈ infos, (Complex (op true) ∨ x.left = y.left) → (Complex (op false) ∨ x.right = y.right) → ∀ i ∈ x.ids, ∀ j ∈ y.ids, pts[i]? = pts[j]? → i = j
  vertex : ∀ x ∈ infos, ∀ i ∈ x.ids, ∀ (b : Bool), Complex (op b) → ∀ t ∈ op b, ∀ v ∈ t.toList, ∀ j : Nat, (base s)[j]? = some v → pts[i]? = some v → i = j

theorem recorded_refers (h : Soups op s) {x : Info} {t u : Tri P3} {l r : Tri Nat} (hx : Recorded op s x t u l r) : Refers (base s) l t ∧ Refers (base s) r u :=
  ⟨face_ids_eq h hx.left hx.leftIds, face_ids_eq h hx.right hx.rightIds⟩

/-- The pattern of a corner. -/
theorem corner_pattern {W : List (Tri P3)} (hW : Complex W) {t u : Tri P3} (ht : t ∈ W) (hu : u ∈ W) {v : P3} (hv : v ∈ u.toList) {k0 k1 k2 : Bool} (h : Open k0 k1 k2 t.a t.b t.c v) :
    (k0 = true ∧ k1 = false ∧ k2 = false ∧ v = t.a) ∨ (k0 = false ∧ k1 = true ∧ k2 = false ∧ v = t.b) ∨ (k0 = false ∧ k1 = false ∧ k2 = true ∧ v = t.c) := by
  have key : ∃ m0 m1 m2, Open m0 m1 m2 u.a u.b u.c v ∧ ∀ y, Supports m0 m1 m2 u y ↔ y = v := by
    have e : v = u.a ∨ v = u.b ∨ v = u.c := by simpa [Tri.toList] using hv
    rcases e with rfl | rfl | rfl
    · exact ⟨true, false, false, ⟨1, 0, 0, by norm_num, by apply FaceFace.p3_ext <;> simp [combo], by simp [Weight], by simp [Weight], by simp [Weight]⟩, fun y => by simp [Supports]⟩
    · exact ⟨false, true, false, ⟨0, 1, 0, by norm_num, by apply FaceFace.p3_ext <;> simp [combo], by simp [Weight], by simp [Weight], by simp [Weight]⟩, fun y => by simp [Supports]⟩
    · exact ⟨false, false, true, ⟨0, 0, 1, by norm_num, by apply FaceFace.p3_ext <;> simp [combo], by simp [Weight], by simp [Weight], by simp [Weight]⟩, fun y => by simp [Supports]⟩
  obtain ⟨m0, m1, m2, ho, hm⟩ := key
  have hs : ∀ y, Supports k0 k1 k2 t y ↔ y = v := fun y => ⟨fun hy => (hm y).1 (supports_sub hW ht hu h ho hy), fun hy => supports_sub hW hu ht ho h ((hm y).2 hy)⟩
  obtain ⟨d1, d2, d3⟩ := distinct_corners (ok_of_proper (hW.proper t ht))
  have ha := hs t.a; have hb := hs t.b; have hc := hs t.c; have hself := (hs v).2 rfl
  simp only [Supports, d1, d2, d3, Ne.symm d1, Ne.symm d2, Ne.symm d3, and_true, and_false, or_false, false_or] at ha hb hc
  unfold Supports at hself
  rcases hself with ⟨-, rfl⟩ | ⟨-, rfl⟩ | ⟨-, rfl⟩
  · left
    refine ⟨ha.2 rfl, ?_, ?_, rfl⟩
    · cases k1
      · rfl
      · exact absurd (hb.1 rfl) (Ne.symm d1)
    · cases k2
      · rfl
      · exact absurd (hc.1 rfl) (Ne.symm d3)
  · right; left
    refine ⟨?_, hb.2 rfl, ?_, rfl⟩
    · cases k0
      · rfl
      · exact absurd (ha.1 rfl) d1
    · cases k2
      · rfl
      · exact absurd (hc.1 rfl) (Ne.symm d2)
  · right; right
    refine ⟨?_, ?_, hc.2 rfl, rfl⟩
    · cases k0
      · rfl
      · exact absurd (ha.1 rfl) d3
    · cases k1
      · rfl
      · exact absurd (hb.1 rfl) d2

/-- A vertex is not inserted again. -/
theorem insert_vertex {K : PointInserter.Kernel} {st st' : PointInserter.State} {L R a b c p q r id : Nat} (h : PointInserter.insert K st L a b c R p q r = ok (st', id)) :
    (L = Region.LV0 → id = a) ∧ (L = Region.LV1 → id = b) ∧ (L = Region.LV2 → id = c) ∧
    (R = Region.RV0 ∨ R = Region.RV1 ∨ R = Region.RV2 → (L = Region.LV0 ∧ id = a) ∨ (L = Region.LV1 ∧ id = b) ∨ (L = Region.LV2 ∧ id = c) ∨ (R = Region.RV0 ∧ id = p) ∨ (R = Region.RV1 ∧ id = q) ∨ (R = Region.RV2 ∧ id = r)) := by
  unfold PointInserter.insert at h
  by_cases h0 : L = Region.LV0
  · rw [if_pos h0] at h; cases h
    subst h0
    exact ⟨fun _ => rfl, fun e => by simp [Region.LV0, Region.LV1] at e, fun e => by simp [Region.LV0, Region.LV2] at e, fun _ => .inl ⟨rfl, rfl⟩⟩
  rw [if_neg h0] at h
  by_cases h1 : L = Region.LV1
  · rw [if_pos h1] at h; cases h
    subst h1
    exact ⟨fun e => absurd e h0, fun _ => rfl, fun e => by simp [Region.LV1, Region.LV2] at e, fun _ => .inr (.inl ⟨rfl, rfl⟩)⟩
  rw [if_neg h1] at h
  by_cases h2 : L = Region.LV2
  · rw [if_pos h2] at h; cases h
    exact ⟨fun e => absurd e h0, fun e => absurd e h1, fun _ => rfl, fun _ => .inr (.inr (.inl ⟨h2, rfl⟩))⟩
  rw [if_neg h2] at h
  refine ⟨fun e => absurd e h0, fun e => absurd e h1, fun e => absurd e h2, fun hR => .inr (.inr (.inr ?_))⟩
  by_cases h3 : R = Region.RV0
  · rw [if_pos h3] at h; cases h; exact .inl ⟨h3, rfl⟩
  rw [if_neg h3] at h
  by_cases h4 : R = Region.RV1
  · rw [if_pos h4] at h; cases h; exact .inr (.inl ⟨h4, rfl⟩)
  rw [if_neg h4] at h
  by_cases h5 : R = Region.RV2
  · rw [if_pos h5] at h; cases h; exact .inr (.inr ⟨h5, rfl⟩)
  rcases hR with e | e | e
  · exact absurd e h3
  · exact absurd e h4
  · exact absurd e h5

theorem forall₂_right {α β : Type} {R : α → β → Prop} {l : List α} {m : List β} (h : List.Forall₂ R l m) : (∀ y ∈ m, ∃ x ∈ l, R x y) ∧ ∀ x ∈ l, ∃ y ∈ m, R x y := by
  induction h with
  | nil => simp
  | cons h _ ih =>
    constructor
    · intro y hy
      rcases List.mem_cons.1 hy with rfl | hy
      · exact ⟨_, by simp, h⟩
      · obtain ⟨x, hx, hr⟩ := ih.1 y hy
        exact ⟨x, by simp [hx], hr⟩
    · intro x hx
      rcases List.mem_cons.1 hx with rfl | hx
      · exact ⟨_, by simp, h⟩
      · obtain ⟨y, hy, hr⟩ := ih.2 x hx
        exact ⟨y, by simp [hy], hr⟩

/-- The call for a corner of a record. -/
def CallOf (op : Bool → List (Tri P3)) (s : Bool → Soup P3 D) (c : PointInserter.Call) (t u : Tri P3) : Prop :=
  ∃ x, Recorded op s x t u c.left c.right ∧ c.code ∈ x.syms

theorem callOf_reported (h : Soups op s) {c : PointInserter.Call} {t u : Tri P3} (hc : CallOf op s c t u) : PointInserter.Reported (base s) c t.a t.b t.c u.a u.b u.c := by
  obtain ⟨x, hx, hm⟩ := hc
  obtain ⟨h1, h2⟩ := recorded_refers h hx
  exact ⟨two_of h hx.left hx.right h1 h2, x.syms, hx.syms, hm⟩

theorem callOf_refers (h : Soups op s) {c : PointInserter.Call} {t u : Tri P3} (hc : CallOf op s c t u) : Refers (base s) c.left t ∧ Refers (base s) c.right u ∧ t ∈ op true ∧ u ∈ op false := by
  obtain ⟨x, hx, hm⟩ := hc
  obtain ⟨h1, h2⟩ := recorded_refers h hx
  exact ⟨h1, h2, List.mem_of_getElem? hx.left, List.mem_of_getElem? hx.right⟩

theorem reported_unique {c : PointInserter.Call} {t u : Tri P3} {A B C P Q' R : P3} (h1 : Refers (base s) c.left t) (h2 : Refers (base s) c.right u) (hr : PointInserter.Reported (base s) c A B C P Q' R) :
    A = t.a ∧ B = t.b ∧ C = t.c ∧ P = u.a ∧ Q' = u.b ∧ R = u.c := by
  obtain ⟨T, -⟩ := hr
  have f : ∀ {i : Nat} {x y : P3}, (base s)[i]? = some x → (base s)[i]? = some y → x = y := fun a b => Option.some.inj (a.symm.trans b)
  exact ⟨f T.ha h1.1, f T.hb h1.2.1, f T.hc h1.2.2, f T.hp h2.1, f T.hq h2.2.1, f T.hr h2.2.2⟩

theorem callOf_proper (h : Soups op s) {c d : PointInserter.Call} {t u t' u' : Tri P3} (hc : CallOf op s c t u) (hd : CallOf op s d t' u')
    (hl : Complex (op true) ∨ t = t') (hr : Complex (op false) ∨ u = u') : PointInserter.Proper2 (base s) c d := by
  obtain ⟨a1, a2, a3, a4⟩ := callOf_refers h hc
  obtain ⟨b1, b2, b3, b4⟩ := callOf_refers h hd
  intro A B C P Q' R A' B' C' P' Q'' R' h1 h2 w
  obtain ⟨rfl, rfl, rfl, rfl, rfl, rfl⟩ := reported_unique a1 a2 h1
  obtain ⟨rfl, rfl, rfl, rfl, rfl, rfl⟩ := reported_unique b1 b2 h2
  constructor
  · intro k1 k2
    rcases hl with hl | rfl
    · exact same_vertices (base_nodup s) hl a3 b3 a1 b1 k1 k2
    · exact same_vertices (base_nodup s) (complex_single (h.proper true t a3)) (by simp) (by simp) a1 b1 k1 k2
  · intro k1 k2
    rcases hr with hr | rfl
    · exact same_vertices (base_nodup s) hr a4 b4 a2 b2 k1 k2
    · exact same_vertices (base_nodup s) (complex_single (h.proper false u a4)) (by simp) (by simp) a2 b2 k1 k2

/-- Ids of calls at vertices. -/
theorem call_vertex {K : PointInserter.Kernel} {c : PointInserter.Call} {t u : Tri P3} (h1 : Refers (base s) c.left t) (h2 : Refers (base s) c.right u) (hcode : c.code < 64) {st st' : PointInserter.State} {id : Nat} (he : PointInserter.call K st c = ok (st', id))
    {w : P3} (hl : Relint 0 c.code t.a t.b t.c w) (hr : Relint 3 c.code u.a u.b u.c w) :
    (Region.inter c.code Region.LF = Region.LV0 → id = c.left.a) ∧ (Region.inter c.code Region.LF = Region.LV1 → id = c.left.b) ∧ (Region.inter c.code Region.LF = Region.LV2 → id = c.left.c) ∧
    (Region.inter c.code Region.RF = Region.RV0 → id = c.right.a) ∧ (Region.inter c.code Region.RF = Region.RV1 → id = c.right.b) ∧ (Region.inter c.code Region.RF = Region.RV2 → id = c.right.c) := by
  obtain ⟨v0, v1, v2, v3⟩ := insert_vertex he
  obtain ⟨l0, l1, l2, -, -⟩ := single_left c.code hcode
  obtain ⟨r0, r1, r2, -, -⟩ := single_right c.code hcode
  have left : ∀ v : P3, w = v → ∀ k : Nat, (base s)[k]? = some v → (Region.inter c.code Region.LF = Region.LV0 ∧ id = c.left.a) ∨ (Region.inter c.code Region.LF = Region.LV1 ∧ id = c.left.b) ∨ (Region.inter c.code Region.LF = Region.LV2 ∧ id = c.left.c) → id = k := by
    rintro v rfl k hk (⟨e, rfl⟩ | ⟨e, rfl⟩ | ⟨e, rfl⟩)
    · obtain ⟨b0, b1, b2⟩ := l0.1 e
      unfold Relint at hl; rw [b0, b1, b2] at hl
      exact get_inj (base_nodup s) (h1.1.trans (by rw [open_vertex.1 hl])) hk
    · obtain ⟨b0, b1, b2⟩ := l1.1 e
      unfold Relint at hl; rw [b0, b1, b2] at hl
      exact get_inj (base_nodup s) (h1.2.1.trans (by rw [open_vertex.2.1 hl])) hk
    · obtain ⟨b0, b1, b2⟩ := l2.1 e
      unfold Relint at hl; rw [b0, b1, b2] at hl
      exact get_inj (base_nodup s) (h1.2.2.trans (by rw [open_vertex.2.2 hl])) hk
  refine ⟨v0, v1, v2, fun e => ?_, fun e => ?_, fun e => ?_⟩
  · obtain ⟨b0, b1, b2⟩ := r0.1 e
    unfold Relint at hr; rw [b0, b1, b2] at hr
    rcases v3 (.inl e) with z | z | z | z | z | z
    · exact left _ (open_vertex.1 hr) _ h2.1 (.inl z)
    · exact left _ (open_vertex.1 hr) _ h2.1 (.inr (.inl z))
    · exact left _ (open_vertex.1 hr) _ h2.1 (.inr (.inr z))
    · exact z.2
    · rw [e] at z; simp [Region.RV0, Region.RV1] at z
    · rw [e] at z; simp [Region.RV0, Region.RV2] at z
  · obtain ⟨b0, b1, b2⟩ := r1.1 e
    unfold Relint at hr; rw [b0, b1, b2] at hr
    rcases v3 (.inr (.inl e)) with z | z | z | z | z | z
    · exact left _ (open_vertex.2.1 hr) _ h2.2.1 (.inl z)
    · exact left _ (open_vertex.2.1 hr) _ h2.2.1 (.inr (.inl z))
    · exact left _ (open_vertex.2.1 hr) _ h2.2.1 (.inr (.inr z))
    · rw [e] at z; simp [Region.RV0, Region.RV1] at z
    · exact z.2
    · rw [e] at z; simp [Region.RV1, Region.RV2] at z
  · obtain ⟨b0, b1, b2⟩ := r2.1 e
    unfold Relint at hr; rw [b0, b1, b2] at hr
    rcases v3 (.inr (.inr e)) with z | z | z | z | z | z
    · exact left _ (open_vertex.2.2 hr) _ h2.2.2 (.inl z)
    · exact left _ (open_vertex.2.2 hr) _ h2.2.2 (.inr (.inl z))
    · exact left _ (open_vertex.2.2 hr) _ h2.2.2 (.inr (.inr z))
    · rw [e] at z; simp [Region.RV0, Region.RV2] at z
    · rw [e] at z; simp [Region.RV1, Region.RV2] at z
    · exact z.2

/-- **Constructing the points** succeeds, and every point gets one id. -/
theorem points_ok (h : Soups op s) {K : PointInserter.Kernel} (hL : LineLine K.lineLine) (hP : PlaneLine K.planeLine) {infos : List Info} (hrec : Records op s infos) (hnil : ∀ x ∈ infos, x.ids = []) :
    ∃ st out, constructPoints K (s true).faces (s false).faces (idsOf s true) (idsOf s false) (PointInserter.start (corefinePoints (s true).points (s false).points).1) infos = ok (st, out) ∧ Points op s st.points.points out := by
  have hcalls : ∀ c ∈ infos.flatMap (callsOf s), ∃ t u, CallOf op s c t u := by
    intro c hc
    obtain ⟨x, hx, hm⟩ := List.mem_flatMap.1 hc
    obtain ⟨t, u, l, r, hr⟩ := hrec.sound x hx
    rw [callsOf_eq hr.leftIds hr.rightIds] at hm
    obtain ⟨code, hcode, rfl⟩ := List.mem_map.1 hm
    exact ⟨t, u, x, hr, hcode⟩
  have hrep : ∀ c ∈ infos.flatMap (callsOf s), ∃ A B C P Q' R, PointInserter.Reported (base s) c A B C P Q' R := fun c hc => by
    obtain ⟨t, u, h'⟩ := hcalls c hc
    exact ⟨_, _, _, _, _, _, callOf_reported h h'⟩
  obtain ⟨st, ids, hrun, hlen, hnew, hpt, -⟩ := PointInserter.C37_points hL hP (corefinePoints (s true).points (s false).points).1 rfl (base_nodup s) _ hrep
  have huniq := PointInserter.C37_unique hL hP (corefinePoints (s true).points (s false).points).1 rfl (base_nodup s) _ hrep hrun
  obtain ⟨out, hout, hf⟩ := constructPoints_run hnil (fun x hx => by
    obtain ⟨t, u, l, r, hr⟩ := hrec.sound x hx
    exact ⟨l, r, hr.leftIds, hr.rightIds⟩) hrun
  obtain ⟨hf1, hf2⟩ := forall₂_right hf
  have fact : ∀ y ∈ out, ∃ t u l r, Recorded op s y t u l r ∧ y.ids.length = y.syms.length ∧ ∀ (i : Nat) code id, y.syms[i]? = some code → y.ids[i]? = some id →
      ∃ n : Nat, (infos.flatMap (callsOf s))[n]? = some ⟨code, l, r⟩ ∧ ids[n]? = some id := by
    intro y hy
    obtain ⟨x, hx, e1, e2, e3, e4, k, hk⟩ := hf1 y hy
    obtain ⟨t, u, l, r, hr⟩ := hrec.sound x hx
    refine ⟨t, u, l, r, ⟨by rw [e1]; exact hr.left, by rw [e2]; exact hr.right, hr.apartL, hr.apartR, by rw [e1]; exact hr.leftIds, by rw [e2]; exact hr.rightIds, by rw [e3]; exact hr.syms, by rw [e3]; exact hr.ne⟩, by rw [e3, e4], fun i code id hi hid => ?_⟩
    rw [e3] at hi
    have hlt := (List.getElem?_eq_some_iff.1 hi).1
    obtain ⟨g1, g2⟩ := hk i hlt
    refine ⟨k + i, ?_, by rw [← g2]; exact hid⟩
    rw [g1, callsOf_eq hr.leftIds hr.rightIds, List.getElem?_map, hi]; rfl
  have codes : ∀ {y : Info} {t u : Tri P3} {l r : Tri Nat}, Recorded op s y t u l r → ∀ code ∈ y.syms, code < 64 ∧ ∀ c : PointInserter.Call, c = ⟨code, l, r⟩ → CallOf op s c t u := by
    intro y t u l r hr code hm
    obtain ⟨h1, h2⟩ := recorded_refers h hr
    obtain ⟨l', e, -, hall⟩ := FaceFace.C34_corners (two_of h hr.left hr.right h1 h2)
    rw [hr.syms] at e; cases e
    exact ⟨((hall code).1 hm).1, by rintro c rfl; exact ⟨y, hr, hm⟩⟩
  -- all about one corner
  have one : ∀ {y : Info} {t u : Tri P3} {l r : Tri Nat}, Recorded op s y t u l r → ∀ {code : Nat}, code ∈ y.syms → ∀ {n id : Nat}, (infos.flatMap (callsOf s))[n]? = some ⟨code, l, r⟩ → ids[n]? = some id →
      ∃ w, st.points.points[id]? = some w ∧ IsCorner t.a t.b t.c u.a u.b u.c code w ∧
        (Region.inter code Region.LF = Region.LV0 → id = l.a) ∧ (Region.inter code Region.LF = Region.LV1 → id = l.b) ∧ (Region.inter code Region.LF = Region.LV2 → id = l.c) ∧
        (Region.inter code Region.RF = Region.RV0 → id = r.a) ∧ (Region.inter code Region.RF = Region.RV1 → id = r.b) ∧ (Region.inter code Region.RF = Region.RV2 → id = r.c) := by
    intro y t u l r hr code hm n id hn hid
    obtain ⟨hlt, hco⟩ := codes hr code hm
    obtain ⟨h1, h2⟩ := recorded_refers h hr
    obtain ⟨w, hw, ho1, ho2, ho3⟩ := hpt n _ id hn hid _ _ _ _ _ _ (callOf_reported h (hco _ rfl))
    obtain ⟨st0, st1, hcall⟩ := run_get hrun hn hid
    exact ⟨w, hw, ⟨⟨ho1, ho2⟩, ho3⟩, call_vertex (c := ⟨code, l, r⟩) h1 h2 hlt hcall ho1 ho2⟩
  refine ⟨st, out, hout, hnew, ?_, ?_, ?_, ?_⟩
  · intro y hy
    obtain ⟨t, u, l, r, hr, hly, hall⟩ := fact y hy
    refine ⟨t, u, l, r, hr, hly, ?_, ?_, ?_⟩
    · intro i code id hi hid
      obtain ⟨n, hn, hin⟩ := hall i code id hi hid
      obtain ⟨w, h1, h2, -⟩ := one hr (List.mem_of_getElem? hi) hn hin
      exact ⟨w, h1, h2⟩
    · intro i id code hid hi
      obtain ⟨n, hn, hin⟩ := hall i code id hi hid
      obtain ⟨hlt, -⟩ := codes hr code (List.mem_of_getElem? hi)
      obtain ⟨w, h1, h2, v0, v1, v2, -⟩ := one hr (List.mem_of_getElem? hi) hn hin
      obtain ⟨-, -, -, ⟨n0, n1, n2⟩, hreg⟩ := single_left code hlt
      have hreg := hreg (some_bit h2.1.1)
      refine ⟨_, rfl, fun e => v0 (e.resolve_right n0), fun e => v1 (e.resolve_right n1), fun e => v2 (e.resolve_right n2), ?_⟩
      exact List.mem_append_left [Region.RV0, Region.RV1, Region.RV2, Region.RE01, Region.RE12, Region.RE20, Region.RF] hreg
    · intro i id code hid hi
      obtain ⟨n, hn, hin⟩ := hall i code id hi hid
      obtain ⟨hlt, -⟩ := codes hr code (List.mem_of_getElem? hi)
      obtain ⟨w, h1, h2, -, -, -, v0, v1, v2⟩ := one hr (List.mem_of_getElem? hi) hn hin
      obtain ⟨-, -, -, ⟨n0, n1, n2⟩, hreg⟩ := single_right code hlt
      have hreg := hreg (some_bit h2.1.2)
      refine ⟨_, rfl, fun e => v0 (e.resolve_left n0), fun e => v1 (e.resolve_left n1), fun e => v2 (e.resolve_left n2), ?_⟩
      exact List.mem_append_right [Region.LV0, Region.LV1, Region.LV2, Region.LE01, Region.LE12, Region.LE20, Region.LF] hreg
  · intro i j t u y ht hu hct hcu hty huy
    obtain ⟨x, hx, e1, e2⟩ := hrec.complete i j t u y ht hu hct hcu hty huy
    obtain ⟨x', hx', f1, f2, -⟩ := hf2 x hx
    exact ⟨x', hx', f1.trans e1, f2.trans e2⟩
  · have idx : ∀ y ∈ out, ∀ i ∈ y.ids, ∃ (n : Nat) (c : PointInserter.Call) (t u : Tri P3), (infos.flatMap (callsOf s))[n]? = some c ∧ ids[n]? = some i ∧ CallOf op s c t u ∧ (op true)[y.left]? = some t ∧ (op false)[y.right]? = some u := by
      intro y hy i hi
      obtain ⟨t, u, l, r, hr, hly, hall⟩ := fact y hy
      obtain ⟨k, hk⟩ := List.mem_iff_getElem?.1 hi
      have hlt : k < y.syms.length := by rw [← hly]; exact (List.getElem?_eq_some_iff.1 hk).1
      obtain ⟨n, h1, h2⟩ := hall k _ i (List.getElem?_eq_getElem hlt) hk
      exact ⟨n, _, t, u, h1, h2, (codes hr _ (List.getElem_mem hlt)).2 _ rfl, hr.left, hr.right⟩
    intro x hx y hy el er i hi j hj he
    obtain ⟨n, c, t, u, n1, n2, hc, tl, tr⟩ := idx x hx i hi
    obtain ⟨m, d, t', u', m1, m2, hd, tl', tr'⟩ := idx y hy j hj
    refine (huniq n m c d (callOf_proper h hc hd (el.imp_right fun e => ?_) (er.imp_right fun e => ?_)) i j n1 m1 n2 m2).1 he
    · rw [e, tl'] at tl; exact (Option.some.inj tl).symm
    · rw [e, tr'] at tr; exact (Option.some.inj tr).symm
  · intro y hy i hi b hcx t' ht' v hv j hj he
    obtain ⟨t, u, l, r, hr, hly, hall⟩ := fact y hy
    obtain ⟨k, hk⟩ := List.mem_iff_getElem?.1 hi
    have hlt : k < y.syms.length := by rw [← hly]; exact (List.getElem?_eq_some_iff.1 hk).1
    obtain ⟨n, h1, h2⟩ := hall k _ i (List.getElem?_eq_getElem hlt) hk
    obtain ⟨hc64, -⟩ := codes hr _ (List.getElem_mem hlt)
    obtain ⟨w, g1, ⟨⟨g2, g3⟩, -⟩, v0, v1, v2, v3, v4, v5⟩ := one hr (List.getElem_mem hlt) h1 h2
    obtain rfl : w = v := Option.some.inj (g1.symm.trans he)
    obtain ⟨rl, rr⟩ := recorded_refers h hr
    obtain ⟨l0, l1, l2, -, -⟩ := single_left _ hc64
    obtain ⟨r0, r1, r2, -, -⟩ := single_right _ hc64
    cases b
    · rcases corner_pattern hcx (List.mem_of_getElem? hr.right) ht' hv g3 with ⟨b0, b1, b2, e⟩ | ⟨b0, b1, b2, e⟩ | ⟨b0, b1, b2, e⟩
      · rw [v3 (r0.2 ⟨b0, b1, b2⟩)]; exact get_inj (base_nodup s) (rr.1.trans (by rw [e])) hj
      · rw [v4 (r1.2 ⟨b0, b1, b2⟩)]; exact get_inj (base_nodup s) (rr.2.1.trans (by rw [e])) hj
      · rw [v5 (r2.2 ⟨b0, b1, b2⟩)]; exact get_inj (base_nodup s) (rr.2.2.trans (by rw [e])) hj
    · rcases corner_pattern hcx (List.mem_of_getElem? hr.left) ht' hv g2 with ⟨b0, b1, b2, e⟩ | ⟨b0, b1, b2, e⟩ | ⟨b0, b1, b2, e⟩
      · rw [v0 (l0.2 ⟨b0, b1, b2⟩)]; exact get_inj (base_nodup s) (rl.1.trans (by rw [e])) hj
      · rw [v1 (l1.2 ⟨b0, b1, b2⟩)]; exact get_inj (base_nodup s) (rl.2.1.trans (by rw [e])) hj
      · rw [v2 (l2.2 ⟨b0, b1, b2⟩)]; exact get_inj (base_nodup s) (rl.2.2.trans (by rw [e])) hj

end Kigumi.Corefine
