import Mathlib.Algebra.Field.Basic
import Mathlib.Logic.Function.Basic

/-!
Model of the BREP writer (src/bgem/bspline/brep_writer.py): numbering of shapes and geometry, and `write_model`.

* Python objects are natural numbers, one numbering for shapes, one for locations, 2D curves, 3D curves and surfaces.
* What `write_model` does not change (kinds, children, points, flags, locations) is the structure `Graph`; what it changes
  (representations, ids, new geometry) is the state `St`.
* All identity locations (`Location()` has no data and the fixed id 0) are one object, number 0.
* The attribute `id` is an `Option`: `none` means the attribute is missing.
* The result of `write_model` is the structure `File`, the numbers and records in the order they are written, instead of text.
* An exception ends the model run: the state left behind by an exception is not modelled.
-/
namespace Verif.Brep

/-- Exceptions. `fuel` is no exception of the code: the recursion of the model was given too little depth. -/
inductive Err where
  | assertion
  | attribute
  | index
  | key
  | exception
  | fuel
  deriving DecidableEq

/-- Shape classes (brep_writer.py:658-1045). -/
inductive Kind where
  | compound
  | compSolid
  | solid
  | shell
  | face
  | wire
  | edge
  | vertex
  deriving DecidableEq

/-- `sub_types` (brep_writer.py:660, 677, 684, 691, 699, 741, 855, 990). -/
def Kind.allows : Kind → List Kind
  | .compound => [.compSolid, .solid, .shell, .wire, .face, .edge, .vertex]
  | .compSolid => [.solid]
  | .solid => [.shell]
  | .shell => [.face]
  | .wire => [.edge]
  | .face => [.wire, .edge]
  | .edge => [.vertex]
  | .vertex => []

/-- `ShapeRef` (brep_writer.py:466-479): `orient` is the value 1 to 4 of `Orient`. -/
structure Ref where
  shape : Nat
  orient : Nat
  loc : Nat
  deriving DecidableEq

/-- B-spline curve (brep_writer.py:165-187, 221-243). -/
structure Curve (K : Type) where
  poles : List (List K)
  knots : List (K × Nat)
  rational : Bool
  degree : Nat
  deriving DecidableEq

/-- B-spline surface (brep_writer.py:288-324). -/
structure Surf (K : Type) where
  poles : List (List (List K))
  uKnots : List (K × Nat)
  vKnots : List (K × Nat)
  rational : Bool
  degree : Nat × Nat
  deriving DecidableEq

/-- An item of `repr` of a vertex, edge or face (brep_writer.py:769, 818, 895, 910, 1003, 1015, 1026). -/
inductive Repr (K : Type) where
  | c3 (t0 t1 : K) (curve loc : Nat)
  | c2 (t0 t1 : K) (curve surf loc : Nat)
  | sf (surf loc : Nat)
  deriving DecidableEq

/-- `Location` and `ComposedLocation` (brep_writer.py:65-79, 104-114). -/
inductive Loc (K : Type) where
  | elem (matrix : List (List K))
  | composed (powers : List (Nat × Int))

/-- The part of the object graph that writing does not change. -/
structure Graph (K : Type) where
  kind : Nat → Kind
  childs : Nat → List Ref
  point : Nat → List K
  flags : Nat → List Nat
  locs : Nat → Loc K

/-- The ids of the objects of one sort, and the list of them in `groups`. -/
structure Tab where
  ids : Nat → Option Nat
  list : List Nat

/-- Append to the list and set the id (brep_writer.py:88-90, 198-200, 253-255, 335-337, 609-610). -/
def Tab.push (t : Tab) (x : Nat) : Tab := ⟨Function.update t.ids x (some (t.list.length + 1)), t.list ++ [x]⟩

/-- `_dfs` of curves, surfaces and plain locations (brep_writer.py:87-90, 196-200, 251-255, 333-337). -/
def Tab.visit (t : Tab) (x : Nat) : Tab := if (t.ids x).isSome then t else t.push x

/-- State: representations, geometry objects with the number of the next new one, ids and groups. -/
structure St (K : Type) where
  repr : Nat → List (Repr K)
  c2 : Nat → Curve K
  n2 : Nat
  c3 : Nat → Curve K
  n3 : Nat
  sf : Nat → Surf K
  nS : Nat
  tL : Tab
  t2 : Tab
  t3 : Tab
  tS : Tab
  tT : Tab

variable {K : Type} [Field K]

/-- `Location._dfs`, `ComposedLocation._dfs` (brep_writer.py:81-90, 117-121); the first argument bounds the nesting. -/
def locDfs (locs : Nat → Loc K) : Nat → Nat → Tab → Tab
  | 0, _, t => t
  | f + 1, l, t =>
    match locs l with
    | .elem _ => t.visit l
    | .composed ps => (ps.foldl (fun t p => locDfs locs f p.1 t) t).visit l

/-- `location._dfs(groups)`: components of a location are older objects, so the nesting is at most its number. -/
def visitLoc (g : Graph K) (s : St K) (l : Nat) : St K := { s with tL := locDfs g.locs (l + 1) l s.tL }

/-- `Approx._line` (brep_writer.py:413-423) for the default overhang. -/
def lineOf (a b : List K) : Curve K :=
  ⟨[a, List.zipWith (fun x y => (x + y) / 2) a b, b], [(0, 3), (1, 3)], false, 2⟩

/-- Mean of points (brep_writer.py:395-396). -/
def meanOf (l : List (List K)) : List K :=
  match l with
  | [] => []
  | p :: ps => (ps.foldl (List.zipWith (· + ·)) p).map (· / (l.length : K))

/-- `Approx.bilinear` (brep_writer.py:386-407): the surface; the parameters of the corners (line 406) are in
`implicitSurface`. -/
def bilinear (v0 v1 v2 v3 : List K) : Surf K :=
  ⟨[[v0, meanOf [v0, v3], v3], [meanOf [v0, v1], meanOf [v0, v1, v2, v3], meanOf [v2, v3]], [v1, meanOf [v1, v2], v2]],
    [(0, 3), (1, 3)], [(0, 3), (1, 3)], false, (2, 2)⟩

/-- `Approx.plane` (brep_writer.py:370-383). -/
def plane (v0 v1 v2 : List K) : Surf K :=
  bilinear v0 v1 (List.zipWith (· - ·) (List.zipWith (· + ·) v1 v2) v0) v2

/-- `Edge.implicit_curve` (brep_writer.py:924-931). The curve has no `_bs_curve`, so `_eval_check` does nothing. -/
def implicitCurve (g : Graph K) (i : Nat) (s : St K) : Except Err (St K) :=
  match (g.childs i).map fun r => g.point r.shape with
  | [a, b] =>
    .ok { s with
      c3 := Function.update s.c3 s.n3 (lineOf a b)
      n3 := s.n3 + 1
      repr := Function.update s.repr i (s.repr i ++ [.c3 0 1 s.n3 0]) }
  | _ => .error .assertion

/-- Loop over `repr` in `Edge._dfs` and `Vertex._dfs` (brep_writer.py:940-947, 1031-1038). -/
def reprDfs (g : Graph K) (s : St K) : Repr K → St K
  | .c2 _ _ c f l => visitLoc g { s with t2 := s.t2.visit c, tS := s.tS.visit f } l
  | .c3 _ _ c l => visitLoc g { s with t3 := s.t3.visit c } l
  | .sf _ _ => s

/-- `Edge.attach_to_plane` (brep_writer.py:912-922). -/
def attach (s : St K) (e surf : Nat) (uv0 uv1 : List K) : St K :=
  { s with
    c2 := Function.update s.c2 s.n2 (lineOf uv0 uv1)
    n2 := s.n2 + 1
    repr := Function.update s.repr e (s.repr e ++ [.c2 0 1 s.n2 surf 0]) }

/-- `d[k]` for a dictionary given by its assignments, the last one counts. -/
def lastOf {α : Type} (d : List (Nat × α)) (k : Nat) : Option α := (d.reverse.find? fun p => p.1 == k).map Prod.snd

/-- `d[k] = a` -/
def putDict (d : List (Nat × Nat)) (k a : Nat) : List (Nat × Nat) :=
  if d.any fun p => p.1 == k then d.map fun p => if p.1 = k then (k, a) else p else d ++ [(k, a)]

/-- `l[0::2]` -/
def evens {α : Type} : List α → List α
  | [] => []
  | [a] => [a]
  | a :: _ :: l => a :: evens l

/-- `l[1::2]` -/
def odds {α : Type} : List α → List α
  | [] => []
  | [_] => []
  | _ :: b :: l => b :: odds l

/-- The attribute `id` of a shape that is already numbered. -/
def idOf (s : St K) (x : Nat) : Nat := (s.tT.ids x).getD 0

/-- References to the edges of the wires of a face. -/
def faceEdges (g : Graph K) (i : Nat) : List Ref := (g.childs i).flatMap fun w => g.childs w.shape

/-- The vertices of the edges of a face in the order of the loops (brep_writer.py:797-804). -/
def faceVtxs (g : Graph K) (i : Nat) : List Nat :=
  (faceEdges g i).flatMap fun e =>
    if e.orient = 2 then ((g.childs e.shape).map Ref.shape).reverse else (g.childs e.shape).map Ref.shape

/-- Attachment of the edges in `implicit_surface` (brep_writer.py:822-827). -/
def attachAll (g : Graph K) (surf : Nat) (uv : List (Nat × List K)) : List Nat → St K → Except Err (St K)
  | [], s => .ok s
  | e :: es, s =>
    match (g.childs e).map Ref.shape with
    | v0 :: v1 :: _ =>
      match lastOf uv (idOf s v0), lastOf uv (idOf s v1) with
      | some a, some b => attachAll g surf uv es (attach s e surf a b)
      | _, _ => .error .key
    | _ => .error .index

/-- `Face.implicit_surface` (brep_writer.py:788-827). Vertices are pairs (id, object); the code compares pairs (id, point
array), which is equality of ids for different objects with different ids, and an exception for different objects with one
id. -/
def implicitSurface (g : Graph K) (i : Nat) (s : St K) : Except Err (St K) :=
  let vt := (faceVtxs g i).map fun v => (idOf s v, v)
  let vt := vt.drop 1 ++ vt.take 1
  let edges := ((faceEdges g i).foldl (fun d e => putDict d (idOf s e.shape) e.shape) []).map Prod.snd
  if odds vt ≠ evens vt then .error .assertion
  else
    match odds vt with
    | [a, b, c] =>
      attachAll g s.nS [(a.1, [0, 0]), (b.1, [1, 0]), (c.1, [0, 1])] edges
        { s with
          sf := Function.update s.sf s.nS (plane (g.point a.2) (g.point b.2) (g.point c.2))
          nS := s.nS + 1
          repr := Function.update s.repr i [.sf s.nS 0] }
    | [a, b, c, d] =>
      attachAll g s.nS [(a.1, [0, 0]), (b.1, [1, 0]), (c.1, [1, 1]), (d.1, [0, 1])] edges
        { s with
          sf := Function.update s.sf s.nS (bilinear (g.point a.2) (g.point b.2) (g.point c.2) (g.point d.2))
          nS := s.nS + 1
          repr := Function.update s.repr i [.sf s.nS 0] }
    | _ => .error .exception

/-- The loops of `_dfs` over children. -/
def loop {α σ : Type} (f : α → σ → Except Err σ) : List α → σ → Except Err σ
  | [], s => .ok s
  | a :: l, s =>
    match f a s with
    | .ok s' => loop f l s'
    | .error e => .error e

/-- `Edge._dfs` after `Shape._dfs` (brep_writer.py:937-947). -/
def edgePost (g : Graph K) (i : Nat) (s : St K) : Except Err (St K) :=
  match (if s.repr i = [] then implicitCurve g i s else .ok s) with
  | .error e => .error e
  | .ok s => .ok ((s.repr i).foldl (reprDfs g) s)

/-- `Face._dfs` after `Shape._dfs` up to the loop over the edges (brep_writer.py:775-780). -/
def facePost (g : Graph K) (i : Nat) (s : St K) : Except Err (St K) :=
  match (if s.repr i = [] then implicitSurface g i s else .ok s) with
  | .error e => .error e
  | .ok s =>
    match s.repr i with
    | [.sf f l] => .ok (visitLoc g { s with tS := s.tS.visit f } l)
    | _ => .error .assertion

/-- `Shape._dfs` (brep_writer.py:604-610); `rec` is `_dfs` of the children. -/
def shapeBase (g : Graph K) (rec : Nat → St K → Except Err (St K)) (i : Nat) (s : St K) : Except Err (St K) :=
  if (s.tT.ids i).isSome then .ok s
  else
    match loop (fun (r : Ref) s => rec r.shape (visitLoc g s r.loc)) (g.childs i) s with
    | .error e => .error e
    | .ok s => .ok { s with tT := s.tT.push i }

/-- The rest of `_dfs`, by the class (brep_writer.py:773-785, 935-947, 1029-1038). -/
def shapePost (g : Graph K) (rec : Nat → St K → Except Err (St K)) (i : Nat) (s : St K) : Except Err (St K) :=
  match g.kind i with
  | .edge => edgePost g i s
  | .face =>
    match facePost g i s with
    | .error e => .error e
    | .ok s => loop (fun (r : Ref) s => rec r.shape s) (faceEdges g i) s
  | .vertex => .ok ((s.repr i).foldl (reprDfs g) s)
  | _ => .ok s

/-- `_dfs` of a shape (brep_writer.py:598-610, 773-785, 935-947, 1029-1038). The first argument bounds the depth. -/
def dfs (g : Graph K) : Nat → Nat → St K → Except Err (St K)
  | 0, _, _ => .error .fuel
  | f + 1, i, s =>
    match shapeBase g (dfs g f) i s with
    | .error e => .error e
    | .ok s => shapePost g (dfs g f) i s

/-- New `groups` (brep_writer.py:646). -/
def clearGroups (s : St K) : St K :=
  { s with
    tL := ⟨s.tL.ids, []⟩
    t2 := ⟨s.t2.ids, []⟩
    t3 := ⟨s.t3.ids, []⟩
    tS := ⟨s.tS.ids, []⟩
    tT := ⟨s.tT.ids, []⟩ }

/-- `index_all` (brep_writer.py:642-650). Shape classes are nested at most eight levels deep, see `Kind.allows`. -/
def indexAll (g : Graph K) (root loc : Nat) (s : St K) : Except Err (St K) :=
  match dfs g 8 root (clearGroups s) with
  | .error e => .error e
  | .ok s => .ok (visitLoc g s loc)

/-- "fix shape IDs" (brep_writer.py:1055-1057). -/
def flip (t : Tab) : Tab :=
  ⟨fun x => if x ∈ t.list then (t.ids x).map fun k => t.list.length + 1 - k else t.ids x, t.list⟩

/-! ### Output -/

/-- A location record (brep_writer.py:92-97, 123-127). -/
inductive LocRec (K : Type) where
  | elem (matrix : List (List K))
  | composed (powers : List (Nat × Int))

/-- The part of a shape record that depends on the class (brep_writer.py:623-624, 832-835, 949-959, 1041-1045): for edges the
representations with curve number, surface number and location number. -/
inductive SubRec (K : Type) where
  | none
  | vertex (point : List K)
  | edge (reprs : List (Repr K))
  | face (surf loc : Nat)

/-- A shape record (brep_writer.py:612-620). -/
structure ShpRec (K : Type) where
  kind : Kind
  sub : SubRec K
  flags : List Nat
  childs : List Ref

/-- The file (brep_writer.py:1059-1088). -/
structure File (K : Type) where
  locs : List (LocRec K)
  c2 : List (Curve K)
  c3 : List (Curve K)
  sf : List (Surf K)
  shapes : List (ShpRec K)
  root : Ref

/-- `x.id` -/
def attr (t : Tab) (x : Nat) : Except Err Nat :=
  match t.ids x with
  | some k => .ok k
  | none => .error .attribute

/-- `_writeformat` (brep_writer.py:481-483) -/
def writeRef (s : St K) (r : Ref) : Except Err Ref := do
  let a ← attr s.tT r.shape
  let b ← attr s.tL r.loc
  pure ⟨a, r.orient, b⟩

/-- One line of an edge record (brep_writer.py:952-958). -/
def writeRepr (s : St K) : Repr K → Except Err (Repr K)
  | .c2 t0 t1 c f l => do
    let c ← attr s.t2 c
    let f ← attr s.tS f
    let l ← attr s.tL l
    pure (.c2 t0 t1 c f l)
  | .c3 t0 t1 c l => do
    let c ← attr s.t3 c
    let l ← attr s.tL l
    pure (.c3 t0 t1 c l)
  | .sf f l => .ok (.sf f l)

/-- `_subrecordoutput` (brep_writer.py:623-624, 832-835, 949-959, 1041-1045) -/
def writeSub (g : Graph K) (s : St K) (i : Nat) : Except Err (SubRec K) :=
  match g.kind i with
  | .vertex => .ok (.vertex (g.point i))
  | .edge => if s.repr i = [] then .error .assertion else do
    let l ← (s.repr i).mapM (writeRepr s)
    pure (.edge l)
  | .face =>
    match s.repr i with
    | [.sf f l] => do
      let f ← attr s.tS f
      let l ← attr s.tL l
      pure (.face f l)
    | _ => .error .assertion
  | _ => .ok .none

/-- `Shape._brep_output` (brep_writer.py:612-620) -/
def writeShape (g : Graph K) (s : St K) (i : Nat) : Except Err (ShpRec K) := do
  let sub ← writeSub g s i
  let ch ← (g.childs i).mapM (writeRef s)
  pure ⟨g.kind i, sub, g.flags i, ch⟩

/-- `_brep_output` of locations (brep_writer.py:92-97, 123-127) -/
def writeLoc (g : Graph K) (s : St K) (l : Nat) : Except Err (LocRec K) :=
  match g.locs l with
  | .elem m => .ok (.elem m)
  | .composed ps => do
    let ps ← ps.mapM fun p => do
      let k ← attr s.tL p.1
      pure (k, p.2)
    pure (.composed ps)

/-- `write_model` (brep_writer.py:1050-1088). -/
def writeModel (g : Graph K) (root loc : Nat) (s : St K) : Except Err (File K × St K) := do
  let s ← indexAll g root loc s
  let s := { s with tT := flip s.tT }
  let locs ← s.tL.list.mapM (writeLoc g s)
  let shapes ← s.tT.list.mapM (writeShape g s)
  pure (⟨locs, s.t2.list.map s.c2, s.t3.list.map s.c3, s.tS.list.map s.sf, shapes, ⟨1, 1, 0⟩⟩, s)

end Verif.Brep
