import Mathlib.Data.Nat.Digits.Defs

/-!
Model of the ASCII part of `src/bgem/gmsh/gmsh_io.py` (class `GmshIO`).  A file is the list of its characters.
Binary files, `write_binary` (which always fails, it opens the file with mode `'wr'`) and the progress messages are not
modelled.
-/
namespace Verif.Msh

/-- Exceptions raised by the reader and the writer. -/
inductive Err where
  | valueError
  | indexError
  | typeError
  | unboundLocal
  | assertion
  | insufficient
  /-- Not a Python exception: the code goes into a branch that is not modelled (binary files). -/
  | notModelled
  deriving DecidableEq

/-! ### Text -/

/-- The characters removed by `str.strip()` and separating words for `str.split()` (Python `str.isspace`). -/
def isSpace (c : Char) : Bool :=
  let n := c.toNat
  (9 ≤ n && n ≤ 13) || (28 ≤ n && n ≤ 32) || n == 0x85 || n == 0xa0 || n == 0x1680 || (0x2000 ≤ n && n ≤ 0x200a) ||
    n == 0x2028 || n == 0x2029 || n == 0x202f || n == 0x205f || n == 0x3000

/-- Lines of a text file opened with `open(.., 'r')` (gmsh_io.py:97): `\n`, `\r` and `\r\n` all end a line. The line
ends themselves are dropped, as every use of a line in `read` strips or splits it. -/
def toLines : List Char → List (List Char)
  | [] => [[]]
  | '\r' :: '\n' :: cs => [] :: toLines cs
  | c :: cs =>
    if c = '\n' ∨ c = '\r' then [] :: toLines cs
    else match toLines cs with
      | [] => [[c]]
      | l :: ls => (c :: l) :: ls

/-- `mshfile.readline()`: at the end of file it returns `''`, which all callers treat like an empty line. -/
def readLine : List (List Char) → List Char × List (List Char)
  | [] => ([], [])
  | l :: ls => (l, ls)

/-- `str.strip()` -/
def strip (l : List Char) : List Char := ((l.dropWhile isSpace).reverse.dropWhile isSpace).reverse

/-- `str.strip('"')` -/
def stripQuotes (l : List Char) : List Char :=
  ((l.dropWhile (· == '"')).reverse.dropWhile (· == '"')).reverse

/-- `str.split()`: the words of a line; `cur` is the word being read. -/
def wordsAux : List Char → List Char → List (List Char)
  | [], cur => if cur = [] then [] else [cur.reverse]
  | c :: cs, cur =>
    if isSpace c then (if cur = [] then wordsAux cs [] else cur.reverse :: wordsAux cs [])
    else wordsAux cs (c :: cur)

/-- `str.split()` -/
def words (l : List Char) : List (List Char) := wordsAux l []

/-- Decimal digit as a character. -/
def digitChar (d : Nat) : Char := Char.ofNat (48 + d)

/-- Decimal notation of a natural number. -/
def showNat (n : Nat) : List Char :=
  if n = 0 then ['0'] else ((Nat.digits 10 n).map digitChar).reverse

/-- `str(i)` and `'%d' % i` for a Python `int`. -/
def showInt (i : Int) : List Char :=
  if i < 0 then '-' :: showNat i.natAbs else showNat i.natAbs

/-- Value of a decimal digit. -/
def digitVal (c : Char) : Option Nat :=
  if 48 ≤ c.toNat ∧ c.toNat ≤ 57 then some (c.toNat - 48) else none

/-- Value of a nonempty string of decimal digits. -/
def readNat (cs : List Char) : Option Nat :=
  if cs = [] then none
  else cs.foldl (fun acc c => acc.bind fun a => (digitVal c).map fun d => a * 10 + d) (some 0)

/-- `int(s)` for a word `s`; `none` is `ValueError`. Simplified: underscores and non-ASCII digits are not accepted. -/
def readInt : List Char → Option Int
  | '-' :: cs => (readNat cs).map fun n : Nat => -(n : Int)
  | '+' :: cs => (readNat cs).map fun n : Nat => (n : Int)
  | cs => (readNat cs).map fun n : Nat => (n : Int)

/-- Python floats as far as the reader and the writer use them: `str(x)` and `float(s)`.  The laws are the guarantees
of CPython: the printed form is one word and reads back as the same number. -/
structure FloatIO (F : Type) where
  shw : F → List Char
  read : List Char → Option F
  zero : F
  read_shw : ∀ x, read (shw x) = some x
  shw_ne : ∀ x, shw x ≠ []
  shw_word : ∀ x, ∀ c ∈ shw x, isSpace c = false
  read_zero : read ['0'] = some zero
  read_version : (read ['2', '.', '2']).isSome

/-! ### Dictionaries and slices -/

/-- `d[k] = v` on a dict kept as the list of its items in insertion order. -/
def dset {α β : Type} [DecidableEq α] (k : α) (v : β) : List (α × β) → List (α × β)
  | [] => [(k, v)]
  | (k', v') :: t => if k' = k then (k', v) :: t else (k', v') :: dset k v t

/-- `d.get(k)` -/
def dget {α β : Type} [DecidableEq α] (k : α) : List (α × β) → Option β
  | [] => none
  | (k', v') :: t => if k' = k then some v' else dget k t

/-- Python slice bound: negative values count from the end, both ends are clipped. -/
def bound (n : Nat) (i : Int) : Nat := if i < 0 then (i + n).toNat else min i.toNat n

/-- `xs[i:j]` -/
def slice {α : Type} (xs : List α) (i j : Int) : List α :=
  (xs.drop (bound xs.length i)).take (bound xs.length j - bound xs.length i)

/-- `xs[i:]` -/
def sliceFrom {α : Type} (xs : List α) (i : Int) : List α := xs.drop (bound xs.length i)

/-! ### The mesh -/

/-- A value of `GmshIO.elements`: `(type, tags, nodes)` (gmsh_io.py:26). -/
structure Elem where
  type : Int
  tags : List Int
  nodes : List Int
  deriving DecidableEq

/-- Keys used in the element data dicts: the reader stores the id as it stands in the file, a string (gmsh_io.py:83). -/
inductive Key where
  | int : Int → Key
  | str : List Char → Key
  deriving DecidableEq

/-- `GmshIO` attributes set by `reset` (gmsh_io.py:41-46). `physical` maps a name to `(id, dim)`; `data` maps a field
name to a dict from time index to `(time, {element: values})`. -/
structure Mesh (F : Type) where
  nodes : List (Int × List F)
  elements : List (Int × Elem)
  physical : List (List Char × (Int × Int))
  data : List (List Char × List (Int × (F × List (Key × List F))))

/-- `GmshIO.reset` (gmsh_io.py:41-46). -/
def reset (F : Type) : Mesh F := ⟨[], [], [], []⟩

variable {F : Type} (io : FloatIO F)

/-- `int(columns[0])` with the exceptions (gmsh_io.py:51, 56, 62, 65, 67, 69). -/
def headInt (line : List Char) : Except Err Int :=
  match words (strip line) with
  | [] => .error .indexError
  | w :: _ =>
    match readInt w with
    | none => .error .valueError
    | some i => .ok i

/-- `float(columns[0])` with the exceptions (gmsh_io.py:59). -/
def headFloat (line : List Char) : Except Err F :=
  match words (strip line) with
  | [] => .error .indexError
  | w :: _ =>
    match io.read w with
    | none => .error .valueError
    | some x => .ok x

/-- What `read_element_data_head` returns. -/
structure Head (F : Type) where
  field : List Char
  time : F
  tIdx : Int
  nComp : Int
  nElem : Int

/-- `assert i == n`. -/
def assertEq (i n : Int) : Except Err Unit := if i = n then .ok () else .error .assertion

/-- `read_element_data_head` (gmsh_io.py:48-70); the second result is the rest of the file. -/
def readHead (ls : List (List Char)) : Except Err (Head F × List (List Char)) := do
  let r1 := readLine ls
  let nStr ← headInt r1.1
  assertEq nStr 1
  let r2 := readLine r1.2
  let field := stripQuotes (strip r2.1)
  let r3 := readLine r2.2
  let nReal ← headInt r3.1
  assertEq nReal 1
  let r4 := readLine r3.2
  let time ← headFloat io r4.1
  let r5 := readLine r4.2
  let nInt ← headInt r5.1
  assertEq nInt 3
  let r6 := readLine r5.2
  let tIdx ← headInt r6.1
  let r7 := readLine r6.2
  let nComp ← headInt r7.1
  let r8 := readLine r7.2
  let nElem ← headInt r8.1
  pure (⟨field, time, tIdx, nComp, nElem⟩, r8.2)

/-- `[float(v) for v in ws]`; `none` is `ValueError`. -/
def readFloats : List (List Char) → Option (List F)
  | [] => some []
  | w :: ws => (io.read w).bind fun x => (readFloats ws).map fun xs => x :: xs

/-- The row loop of `read_element_data_block` (gmsh_io.py:78-86). -/
def readRows (nComp : Int) : Nat → List (Key × List F) → List (List Char) →
    Except Err (List (Key × List F) × List (List Char))
  | 0, acc, ls => .ok (acc, ls)
  | n + 1, acc, ls =>
    let r := readLine ls
    if r.1.head? = some '$' then .error .insufficient
    else
      match words r.1 with
      | [] => .error .indexError
      | iel :: ws =>
        match readFloats io ws with
        | none => .error .valueError
        | some values =>
          if (values.length : Int) = nComp then readRows nComp n (dset (.str iel) values acc) r.2
          else .error .assertion

/-- `read_element_data_block` (gmsh_io.py:72-86).  Simplified: when an exception is raised the partly filled dict is
dropped instead of being left in the object. -/
def readBlock (m : Mesh F) (ls : List (List Char)) : Except Err (Mesh F × List (List Char)) := do
  let (h, ls1) ← readHead io ls
  let times := (dget h.field m.data).getD []
  if (dget h.tIdx times).isSome then .error .assertion
  else
    let (rows, ls2) ← readRows io h.nComp h.nElem.toNat [] ls1
    pure ({ m with data := dset h.field (dset h.tIdx (h.time, rows) times) m.data }, ls2)

/-- The value of `readmode` (gmsh_io.py:99-120). -/
inductive Mode where
  | skip       -- 0
  | nodes      -- 1
  | elm        -- 2, version 1.0
  | elements   -- 3, version 2.0
  | format     -- 4
  | names      -- 5
  deriving DecidableEq

/-- Local variables of `read`. -/
structure Loop (F : Type) where
  mode : Mode
  ftype : Option Int
  mesh : Mesh F

/-- Section headers (gmsh_io.py:107-120) except `$ElementData`. -/
def sectionMode (line : List Char) : Mode :=
  if line = "$NOD".toList ∨ line = "$Nodes".toList then .nodes
  else if line = "$ELM".toList then .elm
  else if line = "$Elements".toList then .elements
  else if line = "$MeshFormat".toList then .format
  else if line = "$PhysicalNames".toList then .names
  else .skip

/-- `[int(col) for col in columns]`; `none` is `ValueError`. -/
def readInts : List (List Char) → Option (List Int)
  | [] => some []
  | w :: ws => (readInt w).bind fun x => (readInts ws).map fun xs => x :: xs

/-- A line in the physical names section (gmsh_io.py:123-125). -/
def nameLine (s : Loop F) (columns : List (List Char)) : Except Err (Loop F) :=
  match columns with
  | [c0, c1, c2] =>
    match readInt c1, readInt c0 with
    | some i, some d => .ok { s with mesh := { s.mesh with physical := dset c2 (i, d) s.mesh.physical } }
    | _, _ => .error .valueError
  | _ => .ok s

/-- A line in the format section (gmsh_io.py:127-134): without three columns `struct.unpack` gets a `str` and raises. -/
def formatLine (s : Loop F) (columns : List (List Char)) : Except Err (Loop F) :=
  match columns with
  | [c0, c1, c2] =>
    match io.read c0, readInt c1, readInt c2 with
    | some _, some ft, some _ =>
      if -2 ≤ ft ∧ ft ≤ 1 then .ok { s with ftype := some ft } else .error .indexError
    | _, _, _ => .error .valueError
  | [] => .error .indexError
  | _ => .error .typeError

/-- A line in the nodes section (gmsh_io.py:135-149). -/
def nodeLine (s : Loop F) (columns : List (List Char)) : Except Err (Loop F) :=
  match s.ftype with
  | none => .error .unboundLocal
  | some ft =>
    if ft = 0 then
      match columns with
      | [c0, c1, c2, c3] =>
        match readInt c0, readFloats io [c1, c2, c3] with
        | some i, some xs => .ok { s with mesh := { s.mesh with nodes := dset i xs s.mesh.nodes } }
        | _, _ => .ok { s with mode := .skip }
      | _ => .ok s
    else if ft = 1 then .error .notModelled
    else .ok s

/-- Element columns as integers (gmsh_io.py:158-168). -/
def elemOf (v2 : Bool) (cols : List Int) : Int × Elem :=
  let id := cols.getD 0 0
  let type := cols.getD 1 0
  if v2 then
    let ntags := cols.getD 2 0
    (id, ⟨type, slice cols 3 (3 + ntags), sliceFrom cols (3 + ntags)⟩)
  else
    (id, ⟨type, slice cols 2 4, sliceFrom cols 5⟩)

/-- A line in the elements sections (gmsh_io.py:150-188); for the other modes only the test of `ftype` remains. -/
def elementLine (s : Loop F) (columns : List (List Char)) : Except Err (Loop F) :=
  match s.ftype with
  | none => .error .unboundLocal
  | some ft =>
    if ft = 0 ∧ (s.mode = .elm ∨ s.mode = .elements) ∧ columns.length > 5 then
      match readInts columns with
      | none => .ok { s with mode := .skip }
      | some cols =>
        let e := elemOf (s.mode == .elements) cols
        .ok { s with mesh := { s.mesh with elements := dset e.1 e.2 s.mesh.elements } }
    else if s.mode = .elements ∧ ft = 1 then .error .notModelled
    else .ok s

/-- The body of the loop for a line that is not a section header (gmsh_io.py:121-188). -/
def dataLine (s : Loop F) (line : List Char) : Except Err (Loop F) :=
  let columns := words line
  match s.mode with
  | .skip => .ok s
  | .names => do
    let s' ← nameLine s columns
    elementLine s' columns
  | .format => do
    let s' ← formatLine io s columns
    elementLine s' columns
  | .nodes => nodeLine io s columns
  | .elm => elementLine s columns
  | .elements => elementLine s columns

theorem readLine_len (ls : List (List Char)) : (readLine ls).2.length ≤ ls.length := by
  cases ls <;> simp [readLine]

theorem readRows_len (nComp : Int) (n : Nat) (acc : List (Key × List F)) (ls : List (List Char)) (r)
    (h : readRows io nComp n acc ls = .ok r) : r.2.length ≤ ls.length := by
  induction n generalizing acc ls with
  | zero => simp only [readRows] at h; cases h; simp
  | succ n ih =>
    simp only [readRows] at h
    split at h
    · cases h
    · split at h
      · cases h
      · split at h
        · cases h
        · split at h
          · exact (ih _ _ h).trans (readLine_len ls)
          · cases h

theorem readHead_len (ls : List (List Char)) (r) (h : readHead io ls = .ok r) : r.2.length ≤ ls.length := by
  simp only [readHead, bind, Except.bind, pure, Except.pure] at h
  repeat (split at h; · cases h)
  cases h
  simp only
  repeat (refine (readLine_len _).trans ?_)
  exact le_refl _

theorem readBlock_len (m : Mesh F) (ls : List (List Char)) (r) (h : readBlock io m ls = .ok r) :
    r.2.length ≤ ls.length := by
  simp only [readBlock, bind, Except.bind, pure, Except.pure] at h
  split at h
  · cases h
  · rename_i v hv
    have h1 := readHead_len io ls v hv
    split at h
    · cases h
    · split at h
      · cases h
      · rename_i w hw
        have h2 := readRows_len io _ _ _ _ w hw
        cases h
        exact h2.trans h1

/-- The loop of `read` (gmsh_io.py:102-188): it ends with the first line that is empty after `strip`, be it a blank line
or the end of the file. -/
def readLoop (s : Loop F) (ls : List (List Char)) : Except Err (Mesh F) :=
  match ls with
  | [] => (dataLine io s []).map (·.mesh)
  | l :: rest =>
    let line := strip l
    if line = "$ElementData".toList then
      match h : readBlock io s.mesh rest with
      | .error e => .error e
      | .ok r => readLoop { s with mesh := r.1 } r.2
    else if line.head? = some '$' then readLoop { s with mode := sectionMode line } rest
    else
      match dataLine io s line with
      | .error e => .error e
      | .ok s' => if line = [] then .ok s'.mesh else readLoop s' rest
termination_by ls.length
decreasing_by
  · have := readBlock_len io _ _ _ h
    simp only [List.length_cons]; omega
  · simp
  · simp

/-- `GmshIO.read` of a text file (gmsh_io.py:89-193) into the object `m`. -/
def read (m : Mesh F) (file : List Char) : Except Err (Mesh F) :=
  readLoop io ⟨.skip, none, m⟩ (toLines file)

/-! ### Writer -/

/-- `print(s, file=f)` -/
def out (s : List Char) : List Char := s ++ ['\n']

/-- `' '.join(ws)` -/
def joinSp : List (List Char) → List Char
  | [] => []
  | [w] => w
  | w :: ws => w ++ ' ' :: joinSp ws

/-- Items of a dict in the order of `sorted(d.keys())`. -/
def sortedItems {α β : Type} [LE α] [DecidableLE α] (d : List (α × β)) : List (α × β) :=
  d.mergeSort fun a b => decide (a.1 ≤ b.1)

/-- gmsh_io.py:204-206 -/
def nameOut (p : List Char × (Int × Int)) : List Char :=
  out (showInt p.2.2 ++ ' ' :: (showInt p.2.1 ++ ' ' :: p.1))

/-- gmsh_io.py:210-212 -/
def nodeOut (p : Int × List F) : List Char := out (showInt p.1 ++ ' ' :: joinSp (p.2.map io.shw))

/-- gmsh_io.py:216-220 -/
def elemOut (p : Int × Elem) : List Char :=
  out (showInt p.1 ++ ' ' :: (showInt p.2.type ++ ' ' :: (showNat p.2.tags.length ++ ' ' ::
    (joinSp (p.2.tags.map showInt) ++ ' ' :: joinSp (p.2.nodes.map showInt)))))

/-- gmsh_io.py:201, 304 -/
def formatOut : List Char := out "$MeshFormat".toList ++ out "2.2 0 8".toList ++ out "$EndMeshFormat".toList

/-- `GmshIO.write_ascii` (gmsh_io.py:195-221). -/
def writeAscii (m : Mesh F) : List Char :=
  formatOut ++
  (out "$PhysicalNames".toList ++ out (showNat m.physical.length) ++
    (sortedItems m.physical).flatMap nameOut ++ out "$EndPhysicalNames".toList) ++
  (out "$Nodes".toList ++ out (showNat m.nodes.length) ++
    (sortedItems m.nodes).flatMap (nodeOut io) ++ out "$EndNodes".toList) ++
  (out "$Elements".toList ++ out (showNat m.elements.length) ++
    (sortedItems m.elements).flatMap elemOut ++ out "$EndElements".toList)

/-- One row of `write_element_data` (gmsh_io.py:289-290). -/
def rowOut (p : Int × List F) : List Char := out (showInt p.1 ++ ' ' :: joinSp (p.2.map io.shw))

/-- `write_element_data` (gmsh_io.py:254-291); `values` is a 2D array given by its rows, of common length, so the number
of components is the length of `values[0]`, which raises `IndexError` for an array without rows. -/
def writeElementData (ids : List Int) (name : List Char) (values : List (List F)) : Except Err (List Char) :=
  match values with
  | [] => .error .indexError
  | v0 :: _ => .ok (
    out "$ElementData".toList ++
    out ['1'] ++ out ('"' :: name ++ ['"']) ++ out ['1'] ++ out ['0'] ++ out ['3'] ++ out ['0'] ++
    out (showNat v0.length) ++ out (showNat values.length) ++
    (ids.zip values).flatMap (rowOut io) ++ out "$EndElementData".toList)

/-- The loop over fields of `write_fields` (gmsh_io.py:305-306). -/
def writeFieldsLoop (ids : List Int) : List (List Char × List (List F)) → Except Err (List Char)
  | [] => .ok []
  | (name, values) :: fs => do
    let a ← writeElementData io ids name values
    let b ← writeFieldsLoop ids fs
    pure (a ++ b)

/-- `write_fields` with a file name (gmsh_io.py:293-306). -/
def writeFields (ids : List Int) (fields : List (List Char × List (List F))) : Except Err (List Char) := do
  let b ← writeFieldsLoop io ids fields
  pure (formatOut ++ b)

end Verif.Msh
