import Verif.Proofs.BinaryIO

/-!
# Soups and regions in binary streams
-/
namespace Kigumi.IO
open Kigumi Outcome

variable {α β D : Type}

theorem CutOk.bind' {r : Rd α} {f : α → Rd β} {bs cs : List Byte} {a : α} {P Q : Nat → Prop} {Y : α → Prop} (h1 : Reads r bs a) (c1 : CutOk r bs P) (c2 : CutOk (f a) cs Q)
    (hy : ∀ st a st', r st = ok (a, st') → Y a) (hs : ∀ x, Y x → Safe (f x)) : CutOk (r.bind f) (bs ++ cs) (splitAt bs.length P Q) := by
  intro n hn hp buf
  rw [List.length_append] at hn
  unfold splitAt at hp
  unfold Rd.bind
  by_cases hlt : n < bs.length
  · rw [if_pos hlt] at hp
    rw [List.take_append_of_le_length (by omega)]
    obtain ⟨a', st1, e, he⟩ := c1 n hlt hp buf
    obtain ⟨b, st2, e2, he2⟩ := hs a' (hy _ _ _ e) st1 he
    exact ⟨b, st2, by rw [e]; exact e2, he2⟩
  · rw [if_neg hlt] at hp
    have e : (bs ++ cs).take n = bs ++ cs.take (n - bs.length) := by
      rw [List.take_append, List.take_of_length_le (by omega)]
    obtain ⟨buf1, e1⟩ := h1 (cs.take (n - bs.length)) buf
    obtain ⟨b, st2, e2, he2⟩ := c2 (n - bs.length) (by omega) hp buf1
    exact ⟨b, st2, by rw [e, e1]; exact e2, he2⟩

theorem Safe.bind' {r : Rd α} {f : α → Rd β} {Y : α → Prop} (h1 : Safe r) (hy : ∀ st a st', r st = ok (a, st') → Y a) (h2 : ∀ a, Y a → Safe (f a)) : Safe (r.bind f) := by
  intro st he
  obtain ⟨a, st1, e, he1⟩ := h1 st he
  obtain ⟨b, st2, e2, he2⟩ := h2 a (hy _ _ _ e) st1 he1
  exact ⟨b, st2, by unfold Rd.bind; rw [e]; exact e2, he2⟩

theorem bind_inv {r : Rd α} {f : α → Rd β} {st st' : St} {b : β} (h : (r.bind f) st = ok (b, st')) : ∃ a st1, r st = ok (a, st1) ∧ f a st1 = ok (b, st') := by
  unfold Rd.bind at h
  obtain ⟨x, hx, h⟩ := bind_ok h
  exact ⟨x.1, x.2, hx, h⟩

/-! ## Vertices -/

/-- The coordinates are consistent: a double is the value. -/
def Consistent (N : Numbers) (p : Pt) : Prop := ∀ c, c = p.x ∨ c = p.y ∨ c = p.z → ∀ b, c.dbl = some b → b < 2 ^ 64 ∧ N.val b = c.value

def isDbl (p : Pt) : Bool := p.x.dbl.isSome && p.y.dbl.isSome && p.z.dbl.isSome

/-- The point read back. -/
def back (N : Numbers) (p : Pt) : Pt := if isDbl p then p else ⟨⟨p.x.value, N.approx p.x.value⟩, ⟨p.y.value, N.approx p.y.value⟩, ⟨p.z.value, N.approx p.z.value⟩⟩

theorem writeVertex_cases {h : Host} {N : Numbers} {p : Pt} {bs : List Byte} (e : writeVertex h N p = ok bs) :
    (isDbl p = true ∧ ∃ x y z, p.x.dbl = some x ∧ p.y.dbl = some y ∧ p.z.dbl = some z ∧ bs = writeBool h false ++ (writeDouble h x ++ (writeDouble h y ++ writeDouble h z))) ∨
    (isDbl p = false ∧ ∃ x y z, writeRat h N.backend p.x.value = ok x ∧ writeRat h N.backend p.y.value = ok y ∧ writeRat h N.backend p.z.value = ok z ∧ bs = writeBool h true ++ (x ++ (y ++ z))) := by
  unfold writeVertex at e
  split at e
  · next x y z hx hy hz =>
    left
    refine ⟨by simp [isDbl, hx, hy, hz], x, y, z, hx, hy, hz, ?_⟩
    rw [← Outcome.ok.inj e]; simp only [List.append_assoc]
  · next hn =>
    right
    obtain ⟨x, hx, e⟩ := bind_ok e
    obtain ⟨y, hy, e⟩ := bind_ok e
    obtain ⟨z, hz, e⟩ := bind_ok e
    refine ⟨?_, x, y, z, hx, hy, hz, ?_⟩
    · cases h1 : p.x.dbl with
      | none => simp [isDbl, h1]
      | some x => cases h2 : p.y.dbl with
        | none => simp [isDbl, h2]
        | some y => cases h3 : p.z.dbl with
          | none => simp [isDbl, h3]
          | some z => exact absurd h3 (hn x y z h1 h2)
    · rw [← Outcome.ok.inj e]; simp only [List.append_assoc]

/-- The two branches. -/
def rDoubles (h : Host) (N : Numbers) : Rd Pt := (rDouble h).bind fun x => (rDouble h).bind fun y => (rDouble h).bind fun z => Rd.ret ⟨⟨N.val x, some x⟩, ⟨N.val y, some y⟩, ⟨N.val z, some z⟩⟩
def rRats (h : Host) (N : Numbers) : Rd Pt := (rRat h N.backend).bind fun x => (rRat h N.backend).bind fun y => (rRat h N.backend).bind fun z => Rd.ret ⟨⟨x, N.approx x⟩, ⟨y, N.approx y⟩, ⟨z, N.approx z⟩⟩

theorem rVertex_eq (h : Host) (N : Numbers) : rVertex h N = (rBool h).bind fun exact => if !exact then rDoubles h N else rRats h N := rfl

theorem safe_doubles (h : Host) (N : Numbers) : Safe (rDoubles h N) := (safe_double h).bind fun _ => (safe_double h).bind fun _ => (safe_double h).bind fun _ => safe_ret _

theorem sticky_rats (h : Host) (N : Numbers) : Sticky (rRats h N) := (sticky_rat h _).bind fun _ => (sticky_rat h _).bind fun _ => (sticky_rat h _).bind fun _ => (safe_ret _).sticky

theorem sticky_branch (h : Host) (N : Numbers) (b : Bool) : Sticky (if !b then rDoubles h N else rRats h N) := by
  cases b
  · exact (safe_doubles h N).sticky
  · exact sticky_rats h N

theorem safe_vertex (h : Host) (N : Numbers) : Safe (rVertex h N) := by
  intro st he
  obtain ⟨st1, e, he1⟩ := rBool_ended h he
  obtain ⟨a, st2, e2, he2⟩ := safe_doubles h N st1 he1
  exact ⟨a, st2, by rw [rVertex_eq]; unfold Rd.bind; rw [e]; exact e2, he2⟩

theorem rBool_empty (h : Host) (buf : List Byte) : rBool h (mk [] buf) = ok (false, ⟨⟨[], true, true⟩, buf⟩) := by
  unfold rBool Rd.bind
  rw [rInt_short h _ _ [] buf (by decide), if_pos rfl]
  rfl

theorem reads_vertex {h h' : Host} {N : Numbers} {p : Pt} {bs : List Byte} (hc : Consistent N p) (e : writeVertex h N p = ok bs) : Reads (rVertex h' N) bs (back N p) := by
  rw [rVertex_eq]
  rcases writeVertex_cases e with ⟨hd, x, y, z, hx, hy, hz, rfl⟩ | ⟨hd, x, y, z, hx, hy, hz, rfl⟩
  · obtain ⟨bx, vx⟩ := hc p.x (Or.inl rfl) x hx
    obtain ⟨by', vy⟩ := hc p.y (Or.inr (Or.inl rfl)) y hy
    obtain ⟨bz, vz⟩ := hc p.z (Or.inr (Or.inr rfl)) z hz
    have hb : back N p = ⟨⟨N.val x, some x⟩, ⟨N.val y, some y⟩, ⟨N.val z, some z⟩⟩ := by
      unfold back; rw [if_pos hd, vx, vy, vz, ← hx, ← hy, ← hz]
    rw [hb]
    refine (reads_bool h h' false).bind ?_
    show Reads (rDoubles h' N) _ _
    exact Reads.bind (reads_double h h' bx) (Reads.bind (f := fun y => (rDouble h').bind fun z => Rd.ret (⟨⟨N.val x, some x⟩, ⟨N.val y, some y⟩, ⟨N.val z, some z⟩⟩ : Pt)) (reads_double h h' by')
      (reads_double h h' bz).map)
  · have hb : back N p = ⟨⟨p.x.value, N.approx p.x.value⟩, ⟨p.y.value, N.approx p.y.value⟩, ⟨p.z.value, N.approx p.z.value⟩⟩ := by
      unfold back; rw [if_neg (by simp [hd])]
    rw [hb]
    refine (reads_bool h h' true).bind ?_
    show Reads (rRats h' N) _ _
    exact Reads.bind (reads_rat hx) (Reads.bind (f := fun y => (rRat h' N.backend).bind fun z => Rd.ret (⟨⟨p.x.value, N.approx p.x.value⟩, ⟨y, N.approx y⟩, ⟨z, N.approx z⟩⟩ : Pt)) (reads_rat hy)
      (reads_rat hz).map)

theorem cutNo_vertex {h h' : Host} {N : Numbers} {p : Pt} {bs : List Byte} (hc : Consistent N p) (e : writeVertex h N p = ok bs) : CutNo (rVertex h' N) bs := by
  rw [rVertex_eq]
  rcases writeVertex_cases e with ⟨hd, x, y, z, hx, hy, hz, rfl⟩ | ⟨hd, x, y, z, hx, hy, hz, rfl⟩
  · obtain ⟨bx, vx⟩ := hc p.x (Or.inl rfl) x hx
    obtain ⟨by', vy⟩ := hc p.y (Or.inr (Or.inl rfl)) y hy
    obtain ⟨bz, vz⟩ := hc p.z (Or.inr (Or.inr rfl)) z hz
    refine (cutNo_bool h h' false).bind (reads_bool h h' false) ?_ (sticky_branch h' N)
    show CutNo (rDoubles h' N) _
    exact (cutOk_double h h' bx _).no.bind (reads_double h h' bx) (CutNo.bind (reads_double h h' by') (cutOk_double h h' by' _).no ((cutOk_double h h' bz _).no.map (reads_double h h' bz))
      fun _ => ((safe_double h').bind fun _ => safe_ret _).sticky) fun _ => ((safe_double h').bind fun _ => (safe_double h').bind fun _ => safe_ret _).sticky
  · refine (cutNo_bool h h' true).bind (reads_bool h h' true) ?_ (sticky_branch h' N)
    show CutNo (rRats h' N) _
    exact (cutNo_rat hx).bind (reads_rat hx) (CutNo.bind (reads_rat hy) (cutNo_rat hy) ((cutNo_rat hz).map (reads_rat hz))
      fun _ => (sticky_rat h' _).bind fun _ => (safe_ret _).sticky) fun _ => (sticky_rat h' _).bind fun _ => (sticky_rat h' _).bind fun _ => (safe_ret _).sticky

/-- A cut is safe in a vertex stored as doubles, and in front of any vertex. -/
def safeIn (p : Pt) (n : Nat) : Prop := isDbl p = true ∨ n = 0

theorem cutOk_vertex {h h' : Host} {N : Numbers} {p : Pt} {bs : List Byte} (hc : Consistent N p) (e : writeVertex h N p = ok bs) : CutOk (rVertex h' N) bs (safeIn p) := by
  have zero : ∀ n, n = 0 → ∀ buf, ∃ a st', rVertex h' N (mk (bs.take n) buf) = ok (a, st') ∧ Ended st' := by
    rintro n rfl buf
    obtain ⟨a, st2, e2, he2⟩ := safe_doubles h' N ⟨⟨[], true, true⟩, buf⟩ rfl
    exact ⟨a, st2, by rw [rVertex_eq]; unfold Rd.bind; rw [List.take_zero, rBool_empty]; exact e2, he2⟩
  intro n hn hp buf
  rcases hp with hp | hp
  · by_cases h0 : n = 0
    · exact zero n h0 buf
    · rcases writeVertex_cases e with ⟨hd, x, y, z, hx, hy, hz, rfl⟩ | ⟨hd, _⟩
      · obtain ⟨bx, vx⟩ := hc p.x (Or.inl rfl) x hx
        obtain ⟨by', vy⟩ := hc p.y (Or.inr (Or.inl rfl)) y hy
        obtain ⟨bz, vz⟩ := hc p.z (Or.inr (Or.inr rfl)) z hz
        have hk : CutOk (rDoubles h' N) (writeDouble h x ++ (writeDouble h y ++ writeDouble h z)) (fun _ => True) :=
          ((cutOk_double h h' bx (fun _ => True)).bind (reads_double h h' bx) (CutOk.bind (Q := fun _ => True) (reads_double h h' by') (cutOk_double h h' by' (fun _ => True)) ((cutOk_double h h' bz _).map (reads_double h h' bz))
            fun _ => (safe_double h').bind fun _ => safe_ret _) fun _ => (safe_double h').bind fun _ => (safe_double h').bind fun _ => safe_ret _).mono
            (fun n _ _ => by unfold splitAt; split; · trivial
                             · split <;> trivial)
        rw [rVertex_eq]
        unfold Rd.bind
        have hl := writeBool_length h false
        have ht : (writeBool h false ++ (writeDouble h x ++ (writeDouble h y ++ writeDouble h z))).take n = writeBool h false ++ (writeDouble h x ++ (writeDouble h y ++ writeDouble h z)).take (n - 1) := by
          rw [List.take_append, List.take_of_length_le (by omega), hl]
        obtain ⟨buf1, e1⟩ := reads_bool h h' false ((writeDouble h x ++ (writeDouble h y ++ writeDouble h z)).take (n - 1)) buf
        obtain ⟨a, st2, e2, he2⟩ := hk (n - 1) (by rw [List.length_append, hl] at hn; omega) trivial buf1
        exact ⟨a, st2, by rw [ht, e1]; exact e2, he2⟩
      · rw [hp] at hd; cases hd
  · exact zero n hp buf

/-! ## The loop over the vertices -/

theorem safe_vertices (h : Host) (N : Numbers) (n : Nat) (t : Soup Pt D) : Safe (rVertices h N n t) := by
  induction n generalizing t with
  | zero => exact safe_ret t
  | succ n ih => exact (safe_vertex h N).bind fun _ => ih _

theorem writeVertices_cons {h : Host} {N : Numbers} {p : Pt} {ps : List Pt} {bs : List Byte} (e : writeVertices h N (p :: ps) = ok bs) :
    ∃ a b, writeVertex h N p = ok a ∧ writeVertices h N ps = ok b ∧ bs = a ++ b := by
  obtain ⟨a, ha, e⟩ := bind_ok (show (writeVertex h N p).bind _ = ok bs from e)
  obtain ⟨b, hb, e⟩ := bind_ok e
  exact ⟨a, b, ha, hb, (Outcome.ok.inj e).symm⟩

theorem reads_vertices {h h' : Host} {N : Numbers} {ps : List Pt} (hc : ∀ p ∈ ps, Consistent N p) {bs : List Byte} (e : writeVertices h N ps = ok bs) (t : Soup Pt D) :
    Reads (rVertices h' N ps.length t) bs ⟨t.points ++ ps.map (back N), t.faces, t.data⟩ := by
  induction ps generalizing bs t with
  | nil =>
    have : bs = [] := (Outcome.ok.inj e).symm
    subst this
    rw [List.map_nil, List.append_nil]; exact reads_ret t
  | cons p ps ih =>
    obtain ⟨a, b, ha, hb, rfl⟩ := writeVertices_cons e
    have := Reads.bind (f := fun p => rVertices h' N ps.length (t.addVertex p).1) (reads_vertex (h' := h') (hc p (by simp)) ha) (ih (fun q hq => hc q (by simp [hq])) hb (t.addVertex (back N p)).1)
    simp only [Soup.addVertex, List.append_assoc, List.cons_append, List.nil_append] at this
    exact this

theorem cutNo_vertices {h h' : Host} {N : Numbers} {ps : List Pt} (hc : ∀ p ∈ ps, Consistent N p) {bs : List Byte} (e : writeVertices h N ps = ok bs) (t : Soup Pt D) :
    CutNo (rVertices h' N ps.length t) bs := by
  induction ps generalizing bs t with
  | nil =>
    have : bs = [] := (Outcome.ok.inj e).symm
    subst this; exact cutNo_nil _
  | cons p ps ih =>
    obtain ⟨a, b, ha, hb, rfl⟩ := writeVertices_cons e
    exact (cutNo_vertex (hc p (by simp)) ha).bind (reads_vertex (hc p (by simp)) ha) (ih (fun q hq => hc q (by simp [hq])) hb _) (fun _ => (safe_vertices h' N _ _).sticky)

/-- The safe cuts of a list of vertices: none within a vertex that is stored exactly. -/
def safeVs (h : Host) (N : Numbers) : List Pt → Nat → Prop
  | [], _ => True
  | p :: ps, n => match writeVertex h N p with
    | ok bs => splitAt bs.length (safeIn p) (safeVs h N ps) n
    | _ => False

theorem cutOk_vertices {h h' : Host} {N : Numbers} {ps : List Pt} (hc : ∀ p ∈ ps, Consistent N p) {bs : List Byte} (e : writeVertices h N ps = ok bs) (t : Soup Pt D) :
    CutOk (rVertices h' N ps.length t) bs (safeVs h N ps) := by
  induction ps generalizing bs t with
  | nil =>
    have : bs = [] := (Outcome.ok.inj e).symm
    subst this; exact cutOk_nil _ _
  | cons p ps ih =>
    obtain ⟨a, b, ha, hb, rfl⟩ := writeVertices_cons e
    refine ((cutOk_vertex (hc p (by simp)) ha).bind (reads_vertex (hc p (by simp)) ha) (ih (fun q hq => hc q (by simp [hq])) hb _) (fun _ => safe_vertices h' N _ _)).mono ?_
    intro n _ hp
    unfold safeVs at hp; rw [ha] at hp; exact hp

theorem vertices_inv {h : Host} {N : Numbers} {n : Nat} {t t' : Soup Pt D} {st st' : St} (e : rVertices h N n t st = ok (t', st')) : t'.faces = t.faces ∧ t'.data = t.data ∧ t'.points.length = t.points.length + n := by
  induction n generalizing t st with
  | zero => cases e; exact ⟨rfl, rfl, rfl⟩
  | succ n ih =>
    obtain ⟨p, st1, -, e⟩ := bind_inv (show ((rVertex h N).bind fun p => rVertices h N n (t.addVertex p).1) st = _ from e)
    obtain ⟨h1, h2, h3⟩ := ih e
    refine ⟨h1, h2, ?_⟩
    rw [h3]; simp [Soup.addVertex]; omega

/-! ## Faces -/

/-- Face data that are read back. -/
structure Codec.Lawful (C : Codec D) (V : D → Prop) : Prop where
  reads : ∀ d, V d → Reads C.dec (C.enc d) d
  safe : Safe C.dec
  cut : ∀ d, V d → CutOk C.dec (C.enc d) (fun _ => True)

theorem appendFace_ok (C : Codec D) {t : Soup Pt D} (hl : t.data.length = t.faces.length) (f : Tri Nat) (d : D) : appendFace C t f d = ok (t.addFace f d) := by
  unfold appendFace Soup.addFace
  rw [if_pos (by rw [List.length_append, List.length_singleton]; omega)]
  congr 2
  rw [← hl, List.set_append_right _ _ (Nat.le_refl _)]; simp

theorem rFaces_succ (h : Host) (C : Codec D) (n : Nat) (t : Soup Pt D) : rFaces h C (n + 1) t = (rSize h).bind fun a => (rSize h).bind fun b => (rSize h).bind fun c => C.dec.bind fun d => fun st =>
      (appendFace C t ⟨a, b, c⟩ d).bind fun t => rFaces h C n t st := rfl

theorem rest_ok (h : Host) (C : Codec D) (n : Nat) {t : Soup Pt D} (hl : t.data.length = t.faces.length) (f : Tri Nat) (d : D) :
    (fun st => (appendFace C t f d).bind fun t => rFaces h C n t st) = rFaces h C n (t.addFace f d) := by
  funext st; rw [appendFace_ok C hl]; rfl

theorem safe_faces (h : Host) {C : Codec D} {V : D → Prop} (hC : C.Lawful V) (n : Nat) {t : Soup Pt D} (hl : t.data.length = t.faces.length) : Safe (rFaces h C n t) := by
  induction n generalizing t with
  | zero => exact safe_ret t
  | succ n ih =>
    rw [rFaces_succ]
    refine (safe_size h).bind fun a => (safe_size h).bind fun b => (safe_size h).bind fun c => hC.safe.bind fun d => ?_
    rw [rest_ok h C n hl]
    exact ih (by simp [Soup.addFace, hl])

theorem sticky_rest (h : Host) (C : Codec D) (hd : Sticky C.dec) (n : Nat) (t : Soup Pt D) : Sticky (rFaces h C n t) := by
  induction n generalizing t with
  | zero => exact (safe_ret t).sticky
  | succ n ih =>
    rw [rFaces_succ]
    refine (safe_size h).sticky.bind fun a => (safe_size h).sticky.bind fun b => (safe_size h).sticky.bind fun c => hd.bind fun d => ?_
    intro st x st' he e
    obtain ⟨t1, -, e⟩ := bind_ok e
    exact ih t1 st x st' he e

theorem writeFaces_cons {h : Host} {C : Codec D} {data : List D} {i : Nat} {f : Tri Nat} {fs : List (Tri Nat)} {bs : List Byte} (e : writeFaces h C data i (f :: fs) = ok bs) :
    ∃ d a b c r, data[i]? = some d ∧ kigumiWrite h .int32 .size f.a = ok a ∧ kigumiWrite h .int32 .size f.b = ok b ∧ kigumiWrite h .int32 .size f.c = ok c ∧
      writeFaces h C data (i + 1) fs = ok r ∧ bs = a ++ (b ++ (c ++ (C.enc d ++ r))) := by
  obtain ⟨d, hd, e⟩ := bind_ok (show (at! data i).bind _ = ok bs from e)
  obtain ⟨x, hx, e⟩ := bind_ok e
  obtain ⟨r, hr, e⟩ := bind_ok e
  obtain ⟨a, ha, hx⟩ := bind_ok (show (writeIndex h f.a).bind _ = ok x from hx)
  obtain ⟨b, hb, hx⟩ := bind_ok hx
  obtain ⟨c, hc, hx⟩ := bind_ok hx
  refine ⟨d, a, b, c, r, at!_ok.1 hd, ha, hb, hc, hr, ?_⟩
  rw [← Outcome.ok.inj e, ← Outcome.ok.inj hx]; simp only [List.append_assoc]

theorem reads_faces {h h' : Host} {C : Codec D} {V : D → Prop} (hC : C.Lawful V) {data : List D} (hV : ∀ d ∈ data, V d) {fs : List (Tri Nat)} {i : Nat} (hi : data.length = i + fs.length) {bs : List Byte}
    (e : writeFaces h C data i fs = ok bs) {t : Soup Pt D} (hl : t.data.length = t.faces.length) :
    Reads (rFaces h' C fs.length t) bs ⟨t.points, t.faces ++ fs, t.data ++ data.drop i⟩ := by
  induction fs generalizing i bs t with
  | nil =>
    have : bs = [] := (Outcome.ok.inj e).symm
    subst this
    rw [List.append_nil, List.drop_of_length_le (by simp at hi; omega), List.append_nil]; exact reads_ret t
  | cons f fs ih =>
    obtain ⟨d, a, b, c, r, hd, ha, hb, hc, hr, rfl⟩ := writeFaces_cons e
    have hdV : V d := hV d (List.mem_of_getElem? hd)
    show Reads (rFaces h' C (fs.length + 1) t) _ _
    rw [rFaces_succ]
    refine (reads_size ha).bind (Reads.bind (reads_size hb) (Reads.bind (reads_size hc) (Reads.bind (hC.reads d hdV) ?_)))
    rw [rest_ok h' C _ hl]
    have := ih (i := i + 1) (by simp at hi; omega) hr (t := t.addFace f d) (by simp [Soup.addFace, hl])
    have hdrop : data.drop i = d :: data.drop (i + 1) := by
      obtain ⟨hlt, he⟩ := List.getElem?_eq_some_iff.1 hd
      rw [List.drop_eq_getElem_cons hlt, he]
    rw [hdrop]
    simp only [Soup.addFace, List.append_assoc, List.cons_append, List.nil_append] at this ⊢
    exact this

theorem cutOk_faces {h h' : Host} {C : Codec D} {V : D → Prop} (hC : C.Lawful V) {data : List D} (hV : ∀ d ∈ data, V d) {fs : List (Tri Nat)} {i : Nat} {bs : List Byte}
    (e : writeFaces h C data i fs = ok bs) {t : Soup Pt D} (hl : t.data.length = t.faces.length) : CutOk (rFaces h' C fs.length t) bs (fun _ => True) := by
  induction fs generalizing i bs t with
  | nil =>
    have : bs = [] := (Outcome.ok.inj e).symm
    subst this; exact cutOk_nil _ _
  | cons f fs ih =>
    obtain ⟨d, a, b, c, r, hd, ha, hb, hc, hr, rfl⟩ := writeFaces_cons e
    have hdV : V d := hV d (List.mem_of_getElem? hd)
    show CutOk (rFaces h' C (fs.length + 1) t) _ _
    rw [rFaces_succ]
    have s0 : ∀ a b c : Nat, Safe (C.dec.bind fun d => fun st => (appendFace C t ⟨a, b, c⟩ d).bind fun t => rFaces h' C fs.length t st) := by
      intro a b c
      refine hC.safe.bind fun d => ?_
      rw [rest_ok h' C _ hl]
      exact safe_faces h' hC _ (by simp [Soup.addFace, hl])
    have triv : ∀ {k : Nat} {n : Nat}, splitAt k (fun _ => True) (fun _ => True) n := by intro k n; unfold splitAt; split <;> trivial
    have mono : ∀ {α : Type} {r : Rd α} {bs : List Byte} {k : Nat}, CutOk r bs (splitAt k (fun _ => True) (fun _ => True)) → CutOk r bs (fun _ => True) := fun h => h.mono fun _ _ _ => triv
    have c3 : CutOk (C.dec.bind fun d => fun st => (appendFace C t ⟨f.a, f.b, f.c⟩ d).bind fun t => rFaces h' C fs.length t st) (C.enc d ++ r) (fun _ => True) := by
      refine mono ((hC.cut d hdV).bind (hC.reads d hdV) ?_ fun d => ?_)
      · rw [rest_ok h' C _ hl]; exact ih hr (by simp [Soup.addFace, hl])
      · rw [rest_ok h' C _ hl]; exact safe_faces h' hC _ (by simp [Soup.addFace, hl])
    exact mono ((cutOk_rSize ha (fun _ => True)).bind (reads_size ha) (mono ((cutOk_rSize hb (fun _ => True)).bind (reads_size hb) (mono ((cutOk_rSize hc (fun _ => True)).bind (reads_size hc) c3
      fun _ => s0 _ _ _)) fun _ => (safe_size h').bind fun _ => s0 _ _ _)) fun _ => (safe_size h').bind fun _ => (safe_size h').bind fun _ => s0 _ _ _)

theorem rSize_lt {h : Host} {st st' : St} {n : Nat} (e : rSize h st = ok (n, st')) : n < 2 ^ 31 := by
  obtain ⟨v, st1, e1, e2⟩ := bind_inv (show ((rInt h .int32 .size).bind fun v => Rd.ret v.toNat) st = _ from e)
  injection e2 with e2; injection e2 with e2 _
  obtain ⟨x, hx, e1⟩ := bind_ok (show (kigumiRead h .int32 .size 0 st.s).bind _ = _ from e1)
  injection e1 with e1; injection e1 with e1 _
  unfold kigumiRead at hx
  rw [if_neg (by decide)] at hx
  dsimp only at hx
  have hf : Fits .int32 (readInt h .int32 0 st.s).2 := by
    rw [readInt_zero]
    split
    · exact wrap_fits (by decide) _
    · exact wrap_fits (by decide) 0
  by_cases hs : Fits .size (readInt h .int32 0 st.s).2
  · rw [(C43_cast _ (by decide) _).1 hs] at hx
    injection hx with hx
    have : x.2 = (readInt h .int32 0 st.s).2 := by rw [← hx]
    have hv : v = (readInt h .int32 0 st.s).2 := by rw [← e1]; exact this
    rw [← hv] at hf hs
    simp only [Fits, IntTy.int32, IntTy.size, if_true, Bool.false_eq_true, if_false] at hf hs
    norm_num at hf hs ⊢; omega
  · rw [(C43_cast _ (by decide) _).2 hs] at hx; cases hx

theorem faces_inv {h : Host} {C : Codec D} {n : Nat} {t t' : Soup Pt D} {st st' : St} (hl : t.data.length = t.faces.length) (hi : ∀ f ∈ t.faces, ∀ v ∈ f.toList, v < 2 ^ 31)
    (e : rFaces h C n t st = ok (t', st')) : t'.points = t.points ∧ t'.data.length = t'.faces.length ∧ t'.faces.length = t.faces.length + n ∧ ∀ f ∈ t'.faces, ∀ v ∈ f.toList, v < 2 ^ 31 := by
  induction n generalizing t st with
  | zero => cases e; exact ⟨rfl, hl, rfl, hi⟩
  | succ n ih =>
    rw [rFaces_succ] at e
    obtain ⟨a, st1, ha, e⟩ := bind_inv e
    obtain ⟨b, st2, hb, e⟩ := bind_inv e
    obtain ⟨c, st3, hc, e⟩ := bind_inv e
    obtain ⟨d, st4, -, e⟩ := bind_inv e
    rw [appendFace_ok C hl] at e
    obtain ⟨h1, h2, h3, h4⟩ := ih (t := t.addFace ⟨a, b, c⟩ d) (by simp [Soup.addFace, hl]) (by
      intro f hf v hv
      simp only [Soup.addFace, List.mem_append, List.mem_singleton] at hf
      rcases hf with hf | rfl
      · exact hi f hf v hv
      · simp only [Tri.toList, List.mem_cons, List.not_mem_nil, or_false] at hv
        rcases hv with rfl | rfl | rfl
        · exact rSize_lt ha
        · exact rSize_lt hb
        · exact rSize_lt hc) e
    refine ⟨h1, h2, ?_, h4⟩
    rw [h3]; simp [Soup.addFace]; omega

end Kigumi.IO
