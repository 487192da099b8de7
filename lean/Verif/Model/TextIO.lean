import Verif.Model.Soup

/-!
# Mesh files in text formats (include/kigumi/io/ascii.h, obj.h, off.h, ply.h)

Characters stand for bytes.  The classic locale is in effect: no thousands separators, white space is the six ASCII characters.  `badbit` is not set by
streams in memory, output streams accept everything, and allocation does not fail.
-/
namespace Kigumi.Text
open Kigumi

/-! ## Input streams (C++ standard library) -/

/-- `std::isspace` in the classic locale. -/
def isSpace (c : Char) : Bool := c == ' ' || c == '\t' || c == '\n' || c == '\x0b' || c == '\x0c' || c == '\r'

def isDigit (c : Char) : Bool := decide ('0' ≤ c) && decide (c ≤ '9')

/-- An input stream: the characters left, `eofbit` and `failbit`. -/
structure IS where
  rest : List Char
  eof : Bool
  fail : Bool
  deriving DecidableEq, Repr

namespace IS

/-- `std::istringstream iss{line}` -/
def of (line : List Char) : IS := ⟨line, false, false⟩

def good (s : IS) : Bool := !s.eof && !s.fail

/-- `clear()` -/
def clear (s : IS) : IS := { s with eof := false, fail := false }

/-- `setstate(failbit)` -/
def setFail (s : IS) : IS := { s with fail := true }

/-- The sentry of formatted input: white space is skipped; fails at the end. -/
def sentry (s : IS) : IS :=
  if !s.good then s.setFail
  else match s.rest.dropWhile isSpace with
    | [] => ⟨[], true, true⟩
    | r => ⟨r, false, false⟩

/-- `peek()` -/
def peek (s : IS) : IS × Option Char :=
  if !s.good then (s.setFail, none)
  else match s.rest with
    | [] => ({ s with eof := true }, none)
    | c :: _ => (s, some c)

/-- `ignore()` on a stream with a next character -/
def ignore (s : IS) : IS := if !s.good then s.setFail else match s.rest with
  | [] => { s with eof := true }
  | _ :: r => { s with rest := r }

/-- `in >> s` for a string: the token, empty if there is none. -/
def readStr (s : IS) : IS × List Char :=
  let s := s.sentry
  if s.fail then (s, [])
  else
    let r := s.rest.dropWhile fun c => !isSpace c
    (⟨r, r.isEmpty, false⟩, s.rest.takeWhile fun c => !isSpace c)

/-- The value of decimal digits. -/
def decVal (ds : List Char) : Nat := ds.foldl (fun a c => 10 * a + (c.toNat - 48)) 0

/-- The characters taken by `num_get` for a decimal integer: sign, digits, the rest. -/
def scanInt (l : List Char) : Bool × List Char × List Char :=
  match l with
  | '-' :: r => (true, r.takeWhile isDigit, r.dropWhile isDigit)
  | '+' :: r => (false, r.takeWhile isDigit, r.dropWhile isDigit)
  | r => (false, r.takeWhile isDigit, r.dropWhile isDigit)

/-- `in >> v` for a `std::size_t` with value `old`: a negative number is wrapped; a number that is too large gives the largest value and fails; without digits the
value is 0 and the extraction fails; if there is nothing left, the value is kept. -/
def readSize (s : IS) (old : Nat) : IS × Nat :=
  let s := s.sentry
  if s.fail then (s, old)
  else
    let (neg, ds, r) := scanInt s.rest
    if ds = [] then (⟨r, r.isEmpty, true⟩, 0)
    else if 2 ^ 64 ≤ decVal ds then (⟨r, r.isEmpty, true⟩, 2 ^ 64 - 1)
    else (⟨r, r.isEmpty, false⟩, if neg then (2 ^ 64 - decVal ds) % 2 ^ 64 else decVal ds)

/-- `in >> v` for a `std::ptrdiff_t`. -/
def readSigned (s : IS) (old : Int) : IS × Int :=
  let s := s.sentry
  if s.fail then (s, old)
  else
    let (neg, ds, r) := scanInt s.rest
    if ds = [] then (⟨r, r.isEmpty, true⟩, 0)
    else if neg then
      if 2 ^ 63 < decVal ds then (⟨r, r.isEmpty, true⟩, -2 ^ 63) else (⟨r, r.isEmpty, false⟩, -(decVal ds : Int))
    else
      if 2 ^ 63 ≤ decVal ds then (⟨r, r.isEmpty, true⟩, 2 ^ 63 - 1) else (⟨r, r.isEmpty, false⟩, decVal ds)

/-- `std::getline(is, line)` -/
def getline (s : IS) : IS × Option (List Char) :=
  if !s.good then (s.setFail, none)
  else
    let line := s.rest.takeWhile fun c => c != '\n'
    match s.rest.dropWhile fun c => c != '\n' with
    | [] => if line = [] then (⟨[], true, true⟩, none) else (⟨[], true, false⟩, some line)
    | _ :: r => (⟨r, false, false⟩, some line)

def linesLoop : Nat → IS → List (List Char)
  | 0, _ => []
  | n + 1, s => match s.getline with
    | (_, none) => []
    | (s, some l) => l :: linesLoop n s

/-- The lines that `while (std::getline(is, line))` goes through (each takes at least one character). -/
def lines (s : IS) : List (List Char) := linesLoop (s.rest.length + 1) s

/-! ## ascii.h -/

/-- `in >> eof` (ascii.h:45-55): `std::ws` skips white space and sets `eofbit` at the end. -/
def expectEof (s : IS) : IS :=
  if s.eof then s
  else match s.rest.dropWhile isSpace with
    | [] => { s with rest := [], eof := true }
    | r => ⟨r, false, true⟩

/-- `in >> opt_hash_comment_eof` (ascii.h:61-75). -/
def optHashEof (s : IS) : IS :=
  if s.fail then s
  else
    let s := s.expectEof
    if !s.fail then s
    else match s.clear.peek with
      | (s, some '#') => { s with rest := [], eof := true }
      | (s, _) => s.setFail

/-- `in >> str` for a `String_constant` (ascii.h:85-93). -/
def expect (s : IS) (str : List Char) : IS :=
  let (s, t) := s.readStr
  if s.fail || t != str then s.setFail else s

end IS

open IS

/-- Doubles: `std::to_chars`, and `fast_float::from_chars` on a whole token. -/
structure Doubles (F : Type) where
  zero : F
  fmt : F → List Char
  parse : List Char → Option F

abbrev P3 (F : Type) := F × F × F

variable {F D : Type}

/-- A plus sign in front is skipped (ascii.h:24). -/
def dropPlus (t : List Char) : List Char := match t with
  | '+' :: r => r
  | r => r

/-- `in >> d` for a `Double` with value `old` (ascii.h:18-32). -/
def readDouble (N : Doubles F) (s : IS) (old : F) : IS × F :=
  let (s, t) := s.readStr
  if s.fail then (s, old)
  else match N.parse (dropPlus t) with
    | some x => (s, x)
    | none => (s.setFail, old)

/-- `iss >> x >> y >> z` on fresh variables; `none` if that fails. -/
def readPoint (N : Doubles F) (s : IS) : Option (P3 F) :=
  let (s, x) := readDouble N s N.zero
  let (s, y) := readDouble N s N.zero
  let (s, z) := readDouble N s N.zero
  if s.fail then none else some (x, y, z)

/-- The triangles added for a polygon (obj.h:82-86, off.h:152-156, ply.h:259-263).  The proofs show that `at` does not throw. -/
def fanFaces (face : List Nat) : List (Tri Nat) :=
  if h : 3 ≤ face.length then List.ofFn (n := face.length - 2) fun i => ⟨face[0]'(by omega), face[i.val + 1]'(by omega), face[i.val + 2]'(by omega)⟩ else []

/-- `add_face` for each of them; the face data have the default value. -/
def addFaces (t : Soup (P3 F) D) (dflt : D) : List (Tri Nat) → Soup (P3 F) D
  | [] => t
  | f :: fs => addFaces (t.addFace f dflt) dflt fs

/-- The new soup, and a counter of the vertices and indices stored so far (not in the code, for C52). -/
structure Acc (F D : Type) where
  soup : Soup (P3 F) D
  stored : Nat

/-! ## OBJ -/

/-- Skipping texture and normal indices (obj.h:75-80). -/
def skipSuffix : Nat → IS → IS
  | 0, s => s
  | n + 1, s => match s.peek with
    | (s, none) => s
    | (s, some c) => if isSpace c then s else skipSuffix n s.ignore

/-- The loop over the indices of a face (obj.h:65-81); false if an index is 0.  `nv` is the number of vertices so far. -/
def objIndices (nv : Nat) : Nat → IS → List Nat → Bool × List Nat
  | 0, _, face => (true, face)
  | n + 1, s, face =>
    let (s, v) := s.readSigned 0
    if s.fail then (true, face)
    else if 0 < v then objIndices nv n (skipSuffix (s.rest.length + 1) s) (face ++ [(v - 1).toNat])
    else if v < 0 then objIndices nv n (skipSuffix (s.rest.length + 1) s) (face ++ [(((nv : Int) + v) % 2 ^ 64).toNat])
    else (false, face)

/-- One line (obj.h:46-87); false if the reader returns false. -/
def objLine (N : Doubles F) (dflt : D) (line : List Char) (a : Acc F D) : Bool × Acc F D :=
  let s := (IS.of line).optHashEof
  if !s.fail then (true, a)
  else
    let (s, w) := s.clear.readStr
    if w = ['v'] then
      match readPoint N s with
      | none => (false, a)
      | some p => (true, ⟨(a.soup.addVertex p).1, a.stored + 1⟩)
    else if w = ['f'] then
      let (ok, face) := objIndices a.soup.points.length (s.rest.length + 1) s []
      if ok then (true, ⟨addFaces a.soup dflt (fanFaces face), a.stored + face.length⟩) else (false, ⟨a.soup, a.stored + face.length⟩)
    else (true, a)

def objLoop (N : Doubles F) (dflt : D) : List (List Char) → Acc F D → Bool × Acc F D
  | [], a => (true, a)
  | l :: ls, a =>
    let (ok, a) := objLine N dflt l a
    if ok then objLoop N dflt ls a else (false, a)

/-- `read_obj` (obj.h:30-92): the value returned, the target afterwards, and the counter. -/
def readObj (N : Doubles F) (dflt : D) (is : IS) (target : Soup (P3 F) D) : Bool × Soup (P3 F) D × Nat :=
  if is.fail then (false, target, 0)
  else
    let (ok, a) := objLoop N dflt is.lines ⟨Soup.empty, 0⟩
    if ok then (true, a.soup, a.stored) else (false, target, a.stored)

/-! ## OFF -/

/-- Removes a prefix, if it is there (off.h:31-40). -/
def dropPrefix (pre s : List Char) : List Char := if pre.isPrefixOf s then s.drop pre.length else s

/-- `in >> sig` (off.h:23-56): the stream and whether the signature says binary. -/
def offSignature (s : IS) : IS × Bool :=
  let (s, t) := s.readStr
  if s.fail then (s, false)
  else if dropPrefix ['N'] (dropPrefix ['C'] (dropPrefix ['S', 'T'] t)) ≠ ['O', 'F', 'F'] then (s.setFail, false)
  else
    let s1 := s.optHashEof
    if !s1.fail then (s1, false)
    else
      let s2 := s1.clear.expect ['B', 'I', 'N', 'A', 'R', 'Y']
      (s2.optHashEof, !s2.fail)

/-- `Off_reading_state` (off.h:58-64). -/
inductive OffState
  | signature | numbers | vertices | faces | done
  deriving DecidableEq, Repr

/-- The local variables of `read_off`. -/
structure Off (F D : Type) where
  state : OffState
  nv : Nat
  nf : Nat
  soup : Soup (P3 F) D
  stored : Nat

/-- The state when no vertices are left (off.h:113-118, 131-136). -/
def afterVertices (nf : Nat) : OffState := if nf = 0 then .done else .faces

/-- `count` indices, each read to a fresh variable. -/
def readIndices : Nat → IS → IS × List Nat
  | 0, s => (s, [])
  | n + 1, s =>
    let (s, v) := s.readSize 0
    let (s, vs) := readIndices n s
    (s, v :: vs)

/-- One line (off.h:86-166). -/
def offLine (N : Doubles F) (dflt : D) (line : List Char) (a : Off F D) : Bool × Off F D :=
  let s := (IS.of line).optHashEof
  if !s.fail then (true, a)
  else
    let s := s.clear
    match a.state with
    | .signature =>
      let (s, bin) := offSignature s
      if s.fail then (false, a) else if bin then (false, a) else (true, { a with state := .numbers })
    | .numbers =>
      let (s, nv) := s.readSize 0
      let (s, nf) := s.readSize 0
      if s.fail then (false, a)
      else (true, { a with nv := nv, nf := nf, state := if nv = 0 then afterVertices nf else .vertices })
    | .vertices =>
      match readPoint N s with
      | none => (false, a)
      | some p => (true, { a with soup := (a.soup.addVertex p).1, stored := a.stored + 1, nv := a.nv - 1, state := if a.nv - 1 = 0 then afterVertices a.nf else .vertices })
    | .faces =>
      let (s, count) := s.readSize 0
      let (s, face) := readIndices count s
      if s.fail then (false, { a with stored := a.stored + face.length })
      else (true, { a with soup := addFaces a.soup dflt (fanFaces face), stored := a.stored + face.length, nf := a.nf - 1, state := if a.nf - 1 = 0 then .done else .faces })
    | .done => (false, a)

def offLoop (N : Doubles F) (dflt : D) : List (List Char) → Off F D → Bool × Off F D
  | [], a => (true, a)
  | l :: ls, a =>
    let (ok, a) := offLine N dflt l a
    if ok then offLoop N dflt ls a else (false, a)

/-- `read_off` (off.h:66-176). -/
def readOff (N : Doubles F) (dflt : D) (is : IS) (target : Soup (P3 F) D) : Bool × Soup (P3 F) D × Nat :=
  if is.fail then (false, target, 0)
  else
    let (ok, a) := offLoop N dflt is.lines ⟨.signature, 0, 0, Soup.empty, 0⟩
    if !ok then (false, target, a.stored)
    else if a.state ≠ .done then (false, target, a.stored)
    else (true, a.soup, a.stored)

/-! ## PLY -/

/-- `Ply_property` (ply.h:25-30); the types of list counts and elements are not used. -/
structure Prop' where
  type : List Char
  name : List Char
  deriving DecidableEq, Repr

/-- `Ply_element` (ply.h:32-36). -/
structure Elem where
  name : List Char
  count : Nat
  props : List Prop'
  deriving DecidableEq, Repr

/-- `Ply_reading_state` (ply.h:18-23). -/
inductive PlyState
  | signature | version | elements | body
  deriving DecidableEq, Repr

/-- Adds a property to the last element (ply.h:118). -/
def addProp : List Elem → Prop' → List Elem
  | [], _ => []
  | [e], p => [{ e with props := e.props ++ [p] }]
  | e :: es, p => e :: addProp es p

/-- One line of the header (ply.h:55-129); `none` if the reader returns false. -/
def plyHeaderLine (line : List Char) (st : PlyState) (els : List Elem) : Option (PlyState × List Elem) :=
  let s := (IS.of line).expectEof
  if !s.fail then some (st, els)
  else
    let (s, w) := s.clear.readStr
    if w = "comment".toList then some (st, els)
    else match st with
      | .signature => if w ≠ "ply".toList then none else if s.expectEof.fail then none else some (.version, els)
      | .version =>
        if w ≠ "format".toList then none
        else if (((s.expect "ascii".toList).expect "1.0".toList).expectEof).fail then none else some (.elements, els)
      | .elements =>
        if w = "element".toList then
          let (s, name) := s.readStr
          let (s, count) := s.readSize 0
          if s.expectEof.fail then none else some (.elements, els ++ [⟨name, count, []⟩])
        else if w = "property".toList then
          if els = [] then none
          else
            let (s, type) := s.readStr
            if s.fail then none
            else if type = "list".toList then
              let (s, _) := s.readStr
              let (s, _) := s.readStr
              let (s, name) := s.readStr
              if s.expectEof.fail then none else some (.elements, addProp els ⟨type, name⟩)
            else
              let (s, name) := s.readStr
              if s.expectEof.fail then none else some (.elements, addProp els ⟨type, name⟩)
        else if w = "end_header".toList then some (.body, els)
        else none
      | .body => some (.body, els)

/-- The header: the elements and the lines left, or `none`. -/
def plyHeader : List (List Char) → PlyState → List Elem → Option (List Elem × List (List Char))
  | [], _, _ => none
  | l :: ls, st, els => match plyHeaderLine l st els with
    | none => none
    | some (st, els) => if st = .body then some (els, ls) else plyHeader ls st els

/-- `find_element` (ply.h:141-148). -/
def findElement (els : List Elem) (name : List Char) : Option Nat := els.findIdx? fun e => e.name = name

/-- `find_property` (ply.h:150-162). -/
def findProperty (e : Elem) (names : List (List Char)) (list : Bool) : Option Nat :=
  e.props.findIdx? fun p => decide (p.name ∈ names) && (decide (p.type = "list".toList) == list)

/-- `n` tokens that are not used. -/
def skipTokens : Nat → IS → IS
  | 0, s => s
  | n + 1, s => skipTokens n s.readStr.1

/-- A property that is not used (ply.h:219-227, 245-253). -/
def skipProperty (p : Prop') (s : IS) : IS :=
  if p.type = "list".toList then
    let (s, count) := s.readSize 0
    skipTokens count s
  else s.readStr.1

/-- The properties of a vertex from number `i` (ply.h:212-228). -/
def plyVertex (N : Doubles F) (xi yi zi : Nat) : Nat → List Prop' → IS → P3 F → IS × P3 F
  | _, [], s, v => (s, v)
  | i, p :: ps, s, (x, y, z) =>
    if i = xi then
      let (s, x) := readDouble N s x
      plyVertex N xi yi zi (i + 1) ps s (x, y, z)
    else if i = yi then
      let (s, y) := readDouble N s y
      plyVertex N xi yi zi (i + 1) ps s (x, y, z)
    else if i = zi then
      let (s, z) := readDouble N s z
      plyVertex N xi yi zi (i + 1) ps s (x, y, z)
    else plyVertex N xi yi zi (i + 1) ps (skipProperty p s) (x, y, z)

/-- The properties of a face from number `i` (ply.h:236-254). -/
def plyFace (vi : Nat) : Nat → List Prop' → IS → List Nat → IS × List Nat
  | _, [], s, f => (s, f)
  | i, p :: ps, s, f =>
    if i = vi then
      let (s, count) := s.readSize 0
      let (s, vs) := readIndices count s
      plyFace vi (i + 1) ps s (f ++ vs)
    else plyFace vi (i + 1) ps (skipProperty p s) f

/-- Where the properties are. -/
structure PlyPlan where
  (ve x y z fe vi : Nat)
  deriving DecidableEq, Repr

/-- The elements and properties needed (ply.h:164-189). -/
def plyPlan (els : List Elem) : Option PlyPlan :=
  (findElement els "vertex".toList).bind fun ve => els[ve]?.bind fun v =>
    (findProperty v ["x".toList] false).bind fun x => (findProperty v ["y".toList] false).bind fun y => (findProperty v ["z".toList] false).bind fun z =>
      (findElement els "face".toList).bind fun fe => els[fe]?.bind fun f =>
        (findProperty f ["vertex_index".toList, "vertex_indices".toList] true).bind fun vi => some ⟨ve, x, y, z, fe, vi⟩

/-- `while (element_it != elements.end() && element_it->count == 0) ++element_it` (ply.h:196-198, 267-269); the iterator is the list of the elements from there,
with their numbers. -/
def advance (todo : List (Nat × Elem)) : List (Nat × Elem) := todo.dropWhile fun e => e.2.count = 0

/-- One line of the body (ply.h:200-269). -/
def plyLine (N : Doubles F) (dflt : D) (q : PlyPlan) (line : List Char) (todo : List (Nat × Elem)) (a : Acc F D) : Bool × List (Nat × Elem) × Acc F D :=
  match todo with
  | [] => (false, [], a)
  | (i, e) :: es =>
    let s := IS.of line
    let todo' := advance ((i, { e with count := e.count - 1 }) :: es)
    if i = q.ve then
      let (s, p) := plyVertex N q.x q.y q.z 0 e.props s (N.zero, N.zero, N.zero)
      if s.fail then (false, todo, a) else (true, todo', ⟨(a.soup.addVertex p).1, a.stored + 1⟩)
    else if i = q.fe then
      let (s, face) := plyFace q.vi 0 e.props s []
      if s.fail then (false, todo, ⟨a.soup, a.stored + face.length⟩) else (true, todo', ⟨addFaces a.soup dflt (fanFaces face), a.stored + face.length⟩)
    else (true, todo', a)

def plyLoop (N : Doubles F) (dflt : D) (q : PlyPlan) : List (List Char) → List (Nat × Elem) → Acc F D → Bool × List (Nat × Elem) × Acc F D
  | [], todo, a => (true, todo, a)
  | l :: ls, todo, a =>
    let (ok, todo, a) := plyLine N dflt q l todo a
    if ok then plyLoop N dflt q ls todo a else (false, todo, a)

/-- The elements with their numbers. -/
def number : Nat → List Elem → List (Nat × Elem)
  | _, [] => []
  | i, e :: es => (i, e) :: number (i + 1) es

/-- `read_ply` (ply.h:38-279). -/
def readPly (N : Doubles F) (dflt : D) (is : IS) (target : Soup (P3 F) D) : Bool × Soup (P3 F) D × Nat :=
  if is.fail then (false, target, 0)
  else match plyHeader is.lines .signature [] with
    | none => (false, target, 0)
    | some (els, ls) => match plyPlan els with
      | none => (false, target, 0)
      | some q =>
        let (ok, todo, a) := plyLoop N dflt q ls (advance (number 0 els)) ⟨Soup.empty, 0⟩
        if !ok then (false, target, a.stored)
        else if todo ≠ [] then (false, target, a.stored)
        else (true, a.soup, a.stored)

/-! ## Writing -/

def decLoop : Nat → Nat → List Char
  | 0, _ => []
  | n + 1, v => (if v < 10 then [] else decLoop n (v / 10)) ++ [Char.ofNat (48 + v % 10)]

/-- `os << v` for an unsigned integer. -/
def dec (v : Nat) : List Char := decLoop (v + 1) v

/-- `os << v` for a signed integer. -/
def decInt (v : Int) : List Char := if v < 0 then '-' :: dec v.natAbs else dec v.natAbs

/-- Three doubles in a line. -/
def pointText (N : Doubles F) (p : P3 F) : List Char := N.fmt p.1 ++ ' ' :: N.fmt p.2.1 ++ ' ' :: N.fmt p.2.2 ++ ['\n']

/-- The signed number with the same 64 bits. -/
def toSigned (n : Nat) : Int := if n % 2 ^ 64 < 2 ^ 63 then (n % 2 ^ 64 : Nat) else (n % 2 ^ 64 : Nat) - 2 ^ 64

/-- An index in an OBJ file (obj.h:123-130); `nv - i` and `i + 1` are unsigned. -/
def objIndex (negative : Bool) (nv i : Nat) : List Char :=
  if negative then decInt (-toSigned (((nv : Int) - i) % 2 ^ 64).toNat) else dec ((i + 1) % 2 ^ 64)

variable {P : Type}

/-- `write_obj` (obj.h:104-134); `dbl` gives the doubles nearest to the coordinates of a point. -/
def writeObj (N : Doubles F) (dbl : P → P3 F) (negative : Bool) (t : Soup P D) : List Char :=
  (t.points.flatMap fun p => 'v' :: ' ' :: pointText N (dbl p)) ++
  t.faces.flatMap fun f => 'f' :: ' ' :: objIndex negative t.points.length f.a ++ ' ' :: objIndex negative t.points.length f.b ++ ' ' :: objIndex negative t.points.length f.c ++ ['\n']

/-- A face in OFF and PLY files (off.h:210, ply.h:321). -/
def faceText (f : Tri Nat) : List Char := '3' :: ' ' :: dec f.a ++ ' ' :: dec f.b ++ ' ' :: dec f.c ++ ['\n']

/-- `write_off` (off.h:188-214). -/
def writeOff (N : Doubles F) (dbl : P → P3 F) (t : Soup P D) : List Char :=
  "OFF\n".toList ++ dec t.points.length ++ ' ' :: dec t.faces.length ++ " 0\n".toList ++ (t.points.flatMap fun p => pointText N (dbl p)) ++ t.faces.flatMap faceText

/-- `write_ply` (ply.h:291-325). -/
def writePly (N : Doubles F) (dbl : P → P3 F) (t : Soup P D) : List Char :=
  "ply\nformat ascii 1.0\nelement vertex ".toList ++ dec t.points.length ++ "\nproperty float x\nproperty float y\nproperty float z\nelement face ".toList ++ dec t.faces.length ++
  "\nproperty list uchar int vertex_index\nend_header\n".toList ++ (t.points.flatMap fun p => pointText N (dbl p)) ++ t.faces.flatMap faceText

end Kigumi.Text
