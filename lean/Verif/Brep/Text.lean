import Verif.Brep.Total
import Verif.Brep.Demo

/-!
The text of a BREP file (src/bgem/bspline/brep_writer.py, `_brep_output`, `_writeformat`, `_subrecordoutput`, `write_model`) and a reader of
the format.

* The stream is a list of characters. Numbers are formatted by an arbitrary function with an inverse (`Fmt`); this is the round trip of
  Python floats through `repr`. Integers are written in decimal.
* The reader takes the words of the text (separated by blanks) as in the description of the BREP format of Open CASCADE.
-/
namespace Verif.Brep

abbrev Word := List Char

def blank (c : Char) : Bool := c == ' ' || c == '\n'

/-- Reads characters; the state is the words before and the characters of the word that is being read. -/
def scan : List Char → List Word × Word → List Word × Word
  | [], s => s
  | c :: t, (d, w) => if blank c then scan t (if w = [] then d else d ++ [w], []) else scan t (d, w ++ [c])

/-- The words of a text. -/
def words (t : List Char) : List Word :=
  match scan t ([], []) with
  | (d, w) => if w = [] then d else d ++ [w]

/-- Format of numbers: a word that can be read back. -/
structure Fmt (K : Type) where
  text : K → Word
  value : Word → Option K
  ne : ∀ x, text x ≠ []
  nb : ∀ x, ∀ c ∈ text x, blank c = false
  back : ∀ x, value (text x) = some x

/-- `"{}".format(n)` of an integer `n ≥ 0`. -/
def nat (n : Nat) : Word := Nat.toDigits 10 n

/-- `"{}".format(n)` of an integer. -/
def int : Int → Word
  | .ofNat n => nat n
  | .negSucc n => '-' :: nat (n + 1)

/-! ### Writing -/

variable {K : Type}

/-- `for value in l: stream.write(" {}".format(value))` -/
def spaced (l : List Word) : List Char := l.flatMap fun w => ' ' :: w

/-- `Curve3D._brep_output`, `Curve2D._brep_output` (brep_writer.py:203-214, 257-268) -/
def curveText (F : Fmt K) (c : Curve K) : List Char :=
  "7 ".toList ++ nat c.rational.toNat ++ " 0  ".toList ++ nat c.degree ++ " ".toList ++ nat c.poles.length ++ " ".toList ++
    nat c.knots.length ++ " ".toList ++ (c.poles.flatMap fun p => spaced (p.map F.text) ++ " ".toList) ++
    (c.knots.flatMap fun k => spaced [F.text k.1, nat k.2] ++ " ".toList) ++ "\n".toList

/-- `Surface._brep_output` (brep_writer.py:339-362); `Nu`, `Nv` of lines 312, 313. -/
def surfText (F : Fmt K) (s : Surf K) : List Char :=
  "9 ".toList ++ nat s.rational.toNat ++ " ".toList ++ nat s.rational.toNat ++ " 0 0 ".toList ++
    spaced [nat s.degree.1, nat s.degree.2] ++ " ".toList ++ nat s.poles.length ++ " ".toList ++ nat (s.poles.headD []).length ++
    "  ".toList ++ nat s.uKnots.length ++ " ".toList ++ nat s.vKnots.length ++ " ".toList ++
    (s.poles.flatMap fun r => (r.flatMap fun p => spaced (p.map F.text) ++ " ".toList) ++ " ".toList) ++
    (s.uKnots.flatMap fun k => spaced [F.text k.1, nat k.2] ++ " ".toList) ++
    (s.vKnots.flatMap fun k => spaced [F.text k.1, nat k.2] ++ " ".toList) ++ "\n".toList

/-- `_brep_output` of locations (brep_writer.py:92-97, 123-127) -/
def locText (F : Fmt K) : LocRec K → List Char
  | .elem m => "1\n".toList ++ m.flatMap fun r => spaced (r.map F.text) ++ "\n".toList
  | .composed ps => "2 ".toList ++ (ps.flatMap fun p => nat p.1 ++ " ".toList ++ int p.2 ++ " ".toList) ++ "0\n".toList

/-- The part of a shape record that depends on the class, with the tolerances and flags that `SubRec` omits. -/
inductive TSub (K : Type) where
  | none
  | vertex (tol : K) (point : List K)
  | edge (tol : K) (f0 f1 f2 : Nat) (reprs : List (Repr K))
  | face (restriction : Nat) (tol : K) (surf loc : Nat)
  deriving DecidableEq

/-- One line of an edge record (brep_writer.py:952-958). -/
def reprText (F : Fmt K) : Repr K → List Char
  | .c2 t0 t1 c f l => "2 ".toList ++ nat c ++ " ".toList ++ nat f ++ " ".toList ++ nat l ++ " ".toList ++ F.text t0 ++ " ".toList ++
      F.text t1 ++ "\n".toList
  | .c3 t0 t1 c l => "1 ".toList ++ nat c ++ " ".toList ++ nat l ++ " ".toList ++ F.text t0 ++ " ".toList ++ F.text t1 ++ "\n".toList
  | .sf _ _ => []

/-- `_subrecordoutput` (brep_writer.py:623-624, 832-835, 949-959, 1041-1045) -/
def subText (F : Fmt K) : TSub K → List Char
  | .none => "\n".toList
  | .vertex tol p => F.text tol ++ "\n".toList ++ (p.flatMap fun x => F.text x ++ " ".toList) ++ "\n0 0\n\n".toList
  | .edge tol f0 f1 f2 rs => " ".toList ++ F.text tol ++ " ".toList ++ nat f0 ++ " ".toList ++ nat f1 ++ " ".toList ++ nat f2 ++
      "\n".toList ++ rs.flatMap (reprText F) ++ "0\n".toList
  | .face r tol f l => nat r ++ " ".toList ++ F.text tol ++ " ".toList ++ nat f ++ " ".toList ++ nat l ++ "\n\n".toList

/-- `shpname` (brep_writer.py:661, 678, 685, 692, 700, 744, 856, 989) -/
def Kind.name : Kind → Word
  | .compound => "Co".toList
  | .compSolid => "Cs".toList
  | .solid => "So".toList
  | .shell => "Sh".toList
  | .face => "Fa".toList
  | .wire => "Wi".toList
  | .edge => "Ed".toList
  | .vertex => "Ve".toList

/-- `orient_chars[orientation - 1]` (brep_writer.py:464, 483) -/
def orientChar : Nat → Char
  | 1 => '+'
  | 2 => '-'
  | 3 => 'i'
  | _ => 'e'

/-- `ShapeRef._writeformat` (brep_writer.py:481-483) -/
def refText (r : Ref) : List Char := orientChar r.orient :: nat r.shape ++ " ".toList ++ nat r.loc ++ " ".toList

/-- A shape record with the tolerances and flags of the object. -/
structure TShp (K : Type) where
  kind : Kind
  sub : TSub K
  flags : List Nat
  childs : List Ref
  deriving DecidableEq

/-- `Shape._brep_output` (brep_writer.py:612-620), `ShapeFlag._brep_output` (brep_writer.py:519-521). -/
def shapeText (F : Fmt K) (s : TShp K) : List Char :=
  s.kind.name ++ "\n".toList ++ subText F s.sub ++ s.flags.flatMap nat ++ "\n".toList ++ s.childs.flatMap refText ++ "*\n".toList

/-- The records of a file. -/
structure TFile (K : Type) where
  locs : List (LocRec K)
  c2 : List (Curve K)
  c3 : List (Curve K)
  sf : List (Surf K)
  shapes : List (TShp K)

/-- What `write_model` writes (brep_writer.py:1059-1088). -/
def fileText (F : Fmt K) (f : TFile K) : List Char :=
  "DBRep_DrawableShape\n\n".toList ++ "CASCADE Topology V1, (c) Matra-Datavision\n".toList ++
    "Locations ".toList ++ nat f.locs.length ++ "\n".toList ++ f.locs.flatMap (locText F) ++
    "Curve2ds ".toList ++ nat f.c2.length ++ "\n".toList ++ f.c2.flatMap (curveText F) ++
    "Curves ".toList ++ nat f.c3.length ++ "\n".toList ++ f.c3.flatMap (curveText F) ++
    "Polygon3D 0\n".toList ++ "PolygonOnTriangulations 0\n".toList ++
    "Surfaces ".toList ++ nat f.sf.length ++ "\n".toList ++ f.sf.flatMap (surfText F) ++
    "Triangulations 0\n".toList ++
    "\nTShapes ".toList ++ nat f.shapes.length ++ "\n".toList ++ f.shapes.flatMap (shapeText F) ++ "\n+1 0".toList

/-! ### Reading -/

/-- A reader takes words from the front. -/
def Rd (α : Type) : Type := List Word → Option (α × List Word)

def Rd.pure {α : Type} (a : α) : Rd α := fun l => some (a, l)

def Rd.bind {α β : Type} (r : Rd α) (f : α → Rd β) : Rd β := fun l =>
  match r l with
  | some (a, l) => f a l
  | none => none

instance : Monad Rd where
  pure := Rd.pure
  bind := Rd.bind

/-- A word of which `f` makes a value. -/
def Rd.word {α : Type} (f : Word → Option α) : Rd α
  | [] => none
  | w :: l => (f w).map fun a => (a, l)

/-- The value of a word of digits. -/
def natValue (w : Word) : Option Nat :=
  if w = [] then none else if w.all Char.isDigit then some (Nat.ofDigitChars 10 w 0) else none

def intValue : Word → Option Int
  | '-' :: w => (natValue w).map fun n => -(n : Int)
  | w => (natValue w).map fun n => (n : Int)

def rdNat : Rd Nat := .word natValue
def rdInt : Rd Int := .word intValue
def rdNum (F : Fmt K) : Rd K := .word F.value

/-- The given word. -/
def rdThis (w : Word) : Rd Unit := .word fun v => if v = w then some () else none

/-- `n` times the same. -/
def rdRep {α : Type} (r : Rd α) : Nat → Rd (List α)
  | 0 => pure []
  | n + 1 => do
    let a ← r
    let l ← rdRep r n
    pure (a :: l)

/-- A flag, 0 or 1. -/
def rdBool : Rd Bool := do
  let n ← rdNat
  if n ≤ 1 then pure (n == 1) else fun _ => none

/-- A knot and its multiplicity. -/
def rdKnot (F : Fmt K) : Rd (K × Nat) := do
  let x ← rdNum F
  let m ← rdNat
  pure (x, m)

/-- B-spline curve, record 7 of 2D curves (`n = 2`) and 3D curves (`n = 3`): rational flag, periodic flag, degree, numbers of poles and
knots, poles with weights for rational curves, knots with multiplicities. -/
def rdCurve (F : Fmt K) (n : Nat) : Rd (Curve K) := do
  rdThis "7".toList
  let r ← rdBool
  rdThis "0".toList
  let d ← rdNat
  let np ← rdNat
  let nk ← rdNat
  let poles ← rdRep (rdRep (rdNum F) (n + r.toNat)) np
  let knots ← rdRep (rdKnot F) nk
  pure ⟨poles, knots, r, d⟩

/-- B-spline surface, record 9. -/
def rdSurf (F : Fmt K) : Rd (Surf K) := do
  rdThis "9".toList
  let ru ← rdBool
  let rv ← rdBool
  rdThis "0".toList
  rdThis "0".toList
  let du ← rdNat
  let dv ← rdNat
  let nu ← rdNat
  let nv ← rdNat
  let ku ← rdNat
  let kv ← rdNat
  let poles ← rdRep (rdRep (rdRep (rdNum F) (3 + (ru || rv).toNat)) nv) nu
  let uk ← rdRep (rdKnot F) ku
  let vk ← rdRep (rdKnot F) kv
  pure ⟨poles, uk, vk, ru || rv, (du, dv)⟩

/-- Pairs of number and power up to the number 0. -/
def rdPowers : Rd (List (Nat × Int))
  | [] => none
  | w :: l =>
    match natValue w, l with
    | some 0, l => some ([], l)
    | some _, [] => none
    | some n, v :: l =>
      match intValue v, rdPowers l with
      | some p, some (ps, l) => some ((n, p) :: ps, l)
      | _, _ => none
    | none, _ => none

/-- Location. -/
def rdLoc (F : Fmt K) : Rd (LocRec K) := do
  let t ← rdNat
  match t with
  | 1 => do
    let m ← rdRep (rdRep (rdNum F) 4) 3
    pure (.elem m)
  | 2 => do
    let ps ← rdPowers
    pure (.composed ps)
  | _ => fun _ => none

/-- Representations of an edge up to the number 0. The first argument bounds their number. -/
def rdReprs (F : Fmt K) : Nat → Rd (List (Repr K))
  | 0 => fun _ => none
  | k + 1 => do
    let t ← rdNat
    match t with
    | 0 => pure []
    | 1 => do
      let c ← rdNat
      let l ← rdNat
      let t0 ← rdNum F
      let t1 ← rdNum F
      let rs ← rdReprs F k
      pure (.c3 t0 t1 c l :: rs)
    | 2 => do
      let c ← rdNat
      let f ← rdNat
      let l ← rdNat
      let t0 ← rdNum F
      let t1 ← rdNum F
      let rs ← rdReprs F k
      pure (.c2 t0 t1 c f l :: rs)
    | _ => fun _ => none

/-- The name of the class. The BREP format has "CS" for compound solids. -/
def kindValue (w : Word) : Option Kind :=
  if w = "Ve".toList then some .vertex
  else if w = "Ed".toList then some .edge
  else if w = "Wi".toList then some .wire
  else if w = "Fa".toList then some .face
  else if w = "Sh".toList then some .shell
  else if w = "So".toList then some .solid
  else if w = "CS".toList then some .compSolid
  else if w = "Co".toList then some .compound
  else none

/-- Seven digits 0 or 1. -/
def flagsValue (w : Word) : Option (List Nat) :=
  if w.length = 7 ∧ ∀ c ∈ w, c = '0' ∨ c = '1' then some (w.map fun c => if c = '1' then 1 else 0) else none

def orientValue : Char → Option Nat
  | '+' => some 1
  | '-' => some 2
  | 'i' => some 3
  | 'e' => some 4
  | _ => none

/-- Orientation and number of a shape. -/
def refValue : Word → Option (Nat × Nat)
  | [] => none
  | c :: w =>
    match orientValue c, natValue w with
    | some o, some n => some (o, n)
    | _, _ => none

/-- References up to the star. -/
def rdRefs : Rd (List Ref)
  | [] => none
  | w :: l =>
    if w = "*".toList then some ([], l)
    else
      match refValue w, l with
      | some (o, n), v :: l =>
        match natValue v, rdRefs l with
        | some k, some (rs, l) => some (⟨n, o, k⟩ :: rs, l)
        | _, _ => none
      | _, _ => none

/-- The part of a shape record that depends on the class. A vertex has no representations; a face without triangulation. -/
def rdSub (F : Fmt K) : Kind → Rd (TSub K)
  | .vertex => do
    let tol ← rdNum F
    let p ← rdRep (rdNum F) 3
    rdThis "0".toList
    rdThis "0".toList
    pure (.vertex tol p)
  | .edge => do
    let tol ← rdNum F
    let f0 ← rdNat
    let f1 ← rdNat
    let f2 ← rdNat
    let rs ← fun l => rdReprs F (l.length + 1) l
    pure (.edge tol f0 f1 f2 rs)
  | .face => do
    let r ← rdNat
    let tol ← rdNum F
    let f ← rdNat
    let l ← rdNat
    pure (.face r tol f l)
  | _ => pure .none

def rdShape (F : Fmt K) : Rd (TShp K) := do
  let k ← .word kindValue
  let s ← rdSub F k
  let f ← .word flagsValue
  let rs ← rdRefs
  pure ⟨k, s, f, rs⟩

/-- A section: its name, the number of records, the records. -/
def rdSection {α : Type} (name : String) (r : Rd α) : Rd (List α) := do
  rdThis name.toList
  let n ← rdNat
  rdRep r n

/-- The whole file, and the reference at its end. -/
def rdFile (F : Fmt K) : Rd (TFile K × Ref) := do
  rdThis "DBRep_DrawableShape".toList
  rdThis "CASCADE".toList
  rdThis "Topology".toList
  rdThis "V1,".toList
  rdThis "(c)".toList
  rdThis "Matra-Datavision".toList
  let locs ← rdSection "Locations" (rdLoc F)
  let c2 ← rdSection "Curve2ds" (rdCurve F 2)
  let c3 ← rdSection "Curves" (rdCurve F 3)
  let _ ← rdSection "Polygon3D" (fun _ => none : Rd Unit)
  let _ ← rdSection "PolygonOnTriangulations" (fun _ => none : Rd Unit)
  let sf ← rdSection "Surfaces" (rdSurf F)
  let _ ← rdSection "Triangulations" (fun _ => none : Rd Unit)
  let shapes ← rdSection "TShapes" (rdShape F)
  let r ← .word refValue
  let l ← rdNat
  pure (⟨locs, c2, c3, sf, shapes⟩, ⟨r.2, r.1, l⟩)

/-- The file in a text: all words are read. -/
def readText (F : Fmt K) (t : List Char) : Option (TFile K × Ref) :=
  match rdFile F (words t) with
  | some (f, []) => some f
  | _ => none

end Verif.Brep
