import Verif.Proofs.TextObj

/-!
# Reading OFF texts
-/
namespace Kigumi.Text
open Kigumi IS

variable {F D : Type}

theorem optHashEof_front {t r : List Char} (ht : Tok t) (hh : ∀ c t', t = c :: t' → c ≠ '#') : (of (t ++ r)).optHashEof = ⟨t ++ r, false, true⟩ := by
  cases t with
  | nil => exact absurd rfl ht.1
  | cons c t =>
    rw [show of (c :: t ++ r) = of ([] ++ c :: (t ++ r)) from rfl, optHashEof_tok spaces_nil (ht.2 c (by simp)) (hh c t rfl)]
    rfl

theorem dec_head (v : Nat) : ∀ c t', dec v = c :: t' → c ≠ '#' := by
  rintro c t' e rfl
  have := dec_digits v '#' (by rw [e]; simp)
  revert this; decide

theorem offLine_insignificant (N : Doubles F) (dflt : D) {l : List Char} (h : Insignificant l) (a : Off F D) : offLine N dflt l a = (true, a) := by
  unfold offLine
  dsimp only
  rw [optHashEof_insignificant h]; rfl

theorem offLine_signature (N : Doubles F) (dflt : D) (a : Off F D) (h : a.state = .signature) : offLine N dflt "OFF".toList a = (true, { a with state := .numbers }) := by
  obtain ⟨st, nv, nf, soup, stored⟩ := a
  cases h
  rfl

theorem offLine_numbers (N : Doubles F) (dflt : D) (a : Off F D) (h : a.state = .numbers) {nv nf : Nat} (h1 : nv < 2 ^ 64) (h2 : nf < 2 ^ 64) {r : List Char} (hr : Stop r) :
    offLine N dflt (dec nv ++ ' ' :: (dec nf ++ r)) a = (true, { a with nv := nv, nf := nf, state := if nv = 0 then afterVertices nf else .vertices }) := by
  unfold offLine
  dsimp only
  rw [optHashEof_front (dec_tok nv) (dec_head nv), if_neg (by simp), h]
  dsimp only
  rw [show (IS.clear ⟨dec nv ++ ' ' :: (dec nf ++ r), false, true⟩) = ⟨[] ++ (dec nv ++ ' ' :: (dec nf ++ r)), false, false⟩ from rfl, readSize_dec spaces_nil h1 (stop_space _).digit]
  dsimp only
  rw [show (⟨' ' :: (dec nf ++ r), (' ' :: (dec nf ++ r)).isEmpty, false⟩ : IS) = ⟨[' '] ++ (dec nf ++ r), false, false⟩ from rfl, readSize_dec spaces_one h2 hr.digit]
  dsimp only
  rw [if_neg (by simp)]

theorem offLine_vertex {N : Doubles F} (hN : N.Lawful) (dflt : D) (a : Off F D) (h : a.state = .vertices) (p : P3 F) :
    offLine N dflt (pointLine N p) a = (true, { a with soup := (a.soup.addVertex p).1, stored := a.stored + 1, nv := a.nv - 1, state := if a.nv - 1 = 0 then afterVertices a.nf else .vertices }) := by
  unfold offLine
  dsimp only
  rw [show pointLine N p = N.fmt p.1 ++ ' ' :: (N.fmt p.2.1 ++ ' ' :: N.fmt p.2.2) from rfl, optHashEof_front (hN.tok p.1) (fun c t e => (hN.head p.1 c t e).2), if_neg (by simp), h]
  dsimp only
  have := readPoint_fmt hN spaces_nil p stop_nil
  rw [List.append_nil] at this
  rw [show (IS.clear ⟨N.fmt p.1 ++ ' ' :: (N.fmt p.2.1 ++ ' ' :: N.fmt p.2.2), false, true⟩) = ⟨[] ++ (N.fmt p.1 ++ ' ' :: (N.fmt p.2.1 ++ ' ' :: N.fmt p.2.2)), false, false⟩ from rfl, this]

theorem indices_stop {vs : List Nat} {extra : List Char} (he : Stop extra) : Stop (vs.flatMap (fun v => ' ' :: dec v) ++ extra) := by
  cases vs with
  | nil => exact he
  | cons v vs => exact stop_space _

theorem readIndices_text {vs : List Nat} (hv : ∀ v ∈ vs, v < 2 ^ 64) {extra : List Char} (he : Stop extra) :
    readIndices vs.length ⟨vs.flatMap (fun v => ' ' :: dec v) ++ extra, (vs.flatMap (fun v => ' ' :: dec v) ++ extra).isEmpty, false⟩ = (⟨extra, extra.isEmpty, false⟩, vs) := by
  induction vs with
  | nil => rfl
  | cons v vs ih =>
    have hst : (⟨(v :: vs).flatMap (fun v => ' ' :: dec v) ++ extra, ((v :: vs).flatMap (fun v => ' ' :: dec v) ++ extra).isEmpty, false⟩ : IS) =
      ⟨[' '] ++ (dec v ++ (vs.flatMap (fun v => ' ' :: dec v) ++ extra)), false, false⟩ := by simp
    rw [hst, List.length_cons]
    unfold readIndices
    rw [readSize_dec spaces_one (hv v (by simp)) (indices_stop he).digit]
    dsimp only
    rw [ih fun x hx => hv x (by simp [hx])]

theorem readPolygon {w : List Char} (hw : Spaces w) {p : Polygon} (hp : p.Valid) : readSize ⟨w ++ polygonLine p, false, false⟩ 0 =
    (⟨p.vertices.flatMap (fun v => ' ' :: dec v) ++ p.extra, (p.vertices.flatMap (fun v => ' ' :: dec v) ++ p.extra).isEmpty, false⟩, p.vertices.length) := by
  unfold polygonLine
  rw [readSize_dec hw hp.count (indices_stop hp.extra_space).digit]

theorem offLine_face (N : Doubles F) (dflt : D) (a : Off F D) (h : a.state = .faces) {p : Polygon} (hp : p.Valid) :
    offLine N dflt (polygonLine p) a = (true, { a with soup := addFaces a.soup dflt (fan p.vertices), stored := a.stored + p.vertices.length, nf := a.nf - 1, state := if a.nf - 1 = 0 then .done else .faces }) := by
  unfold offLine
  dsimp only
  rw [show polygonLine p = dec p.vertices.length ++ (p.vertices.flatMap (fun v => ' ' :: dec v) ++ p.extra) from rfl, optHashEof_front (dec_tok _) (dec_head _), if_neg (by simp), h]
  dsimp only
  rw [show (IS.clear ⟨dec p.vertices.length ++ (p.vertices.flatMap (fun v => ' ' :: dec v) ++ p.extra), false, true⟩) = ⟨[] ++ polygonLine p, false, false⟩ from rfl, readPolygon spaces_nil hp]
  dsimp only
  rw [readIndices_text hp.index hp.extra_space]
  dsimp only
  rw [if_neg (by simp), fanFaces_eq]

theorem offLoop_cons {N : Doubles F} {dflt : D} {l : List Char} {a a' : Off F D} (h : offLine N dflt l a = (true, a')) (ls : List (List Char)) : offLoop N dflt (l :: ls) a = offLoop N dflt ls a' := by
  rw [offLoop, h]
  rfl

theorem offLoop_vertices {N : Doubles F} (hN : N.Lawful) (dflt : D) (ps : List (P3 F)) (ls : List (List Char)) (nf : Nat) (soup : Soup (P3 F) D) (stored : Nat) :
    offLoop N dflt (ps.map (pointLine N) ++ ls) ⟨if ps.length = 0 then afterVertices nf else .vertices, ps.length, nf, soup, stored⟩ =
    offLoop N dflt ls ⟨afterVertices nf, 0, nf, ⟨soup.points ++ ps, soup.faces, soup.data⟩, stored + ps.length⟩ := by
  induction ps generalizing soup stored with
  | nil => simp
  | cons p ps ih =>
    rw [List.map_cons, List.cons_append, offLoop_cons (offLine_vertex hN dflt _ rfl p)]
    have := ih (soup.addVertex p).1 (stored + 1)
    simp only [List.length_cons, Nat.add_sub_cancel]
    rw [this]
    simp only [Soup.addVertex, List.append_assoc, List.singleton_append]
    congr 2; omega

theorem offLoop_faces (N : Doubles F) (dflt : D) (fs : List Polygon) (h : ∀ f ∈ fs, f.Valid) (nv : Nat) (soup : Soup (P3 F) D) (stored : Nat) :
    ∃ k, offLoop N dflt (fs.map polygonLine) ⟨afterVertices fs.length, nv, fs.length, soup, stored⟩ =
      (true, ⟨.done, nv, 0, ⟨soup.points, soup.faces ++ fs.flatMap (fun f => fan f.vertices), soup.data ++ List.replicate (fs.flatMap (fun f => fan f.vertices)).length dflt⟩, k⟩) := by
  induction fs generalizing soup stored with
  | nil => exact ⟨stored, by simp [offLoop, afterVertices]⟩
  | cons f fs ih =>
    rw [List.map_cons, offLoop_cons (offLine_face N dflt _ (by simp [afterVertices]) (h f (by simp))), addFaces_eq]
    obtain ⟨k, hk⟩ := ih (fun g hg => h g (by simp [hg])) ⟨soup.points, soup.faces ++ fan f.vertices, soup.data ++ List.replicate (fan f.vertices).length dflt⟩ (stored + f.vertices.length)
    refine ⟨k, ?_⟩
    have e : (if (f :: fs).length - 1 = 0 then OffState.done else .faces) = afterVertices fs.length := by simp [afterVertices]
    dsimp only
    rw [e, show (f :: fs).length - 1 = fs.length by simp, hk]
    simp only [List.flatMap_cons, List.append_assoc, List.length_append, List.replicate_append_replicate]

theorem readOff_text {N : Doubles F} (hN : N.Lawful) (dflt : D) (ps : List (P3 F)) (hps : ps.length < 2 ^ 64) (fs : List Polygon) (hfs : fs.length < 2 ^ 64) (h : ∀ f ∈ fs, f.Valid) (target : Soup (P3 F) D) :
    ∃ k, readOff N dflt (of (offText N ps fs)) target = (true, ⟨ps, fs.flatMap (fun f => fan f.vertices), List.replicate (fs.flatMap (fun f => fan f.vertices)).length dflt⟩, k) := by
  unfold readOff offText
  rw [if_neg (by simp [of]), lines_textOf]
  · rw [List.append_assoc, show ∀ x y : List Char, ∀ z, [x, y] ++ z = x :: y :: z from fun _ _ _ => rfl, offLoop_cons (offLine_signature N dflt _ rfl),
      offLoop_cons (offLine_numbers N dflt _ rfl hps hfs (r := " 0".toList) (stop_space _))]
    dsimp only
    rw [offLoop_vertices hN]
    obtain ⟨k, hk⟩ := offLoop_faces N dflt fs h 0 ⟨[] ++ ps, [], []⟩ (0 + ps.length)
    refine ⟨k, ?_⟩
    rw [show (Soup.empty : Soup (P3 F) D) = ⟨[], [], []⟩ from rfl, hk]
    simp
  · intro l hl
    rcases List.mem_append.1 hl with hl | hl
    · rcases List.mem_append.1 hl with hl | hl
      · rcases List.mem_cons.1 hl with rfl | hl
        · decide
        · rw [List.mem_singleton.1 hl]
          simp only [List.mem_append, List.mem_cons, not_or]
          exact ⟨no_nl (dec_tok _).2, by decide, no_nl (dec_tok _).2, by decide⟩
      · obtain ⟨p, -, rfl⟩ := List.mem_map.1 hl
        exact pointLine_no_nl hN p
    · obtain ⟨f, hf, rfl⟩ := List.mem_map.1 hl
      exact polygonLine_no_nl (h f hf)

end Kigumi.Text
