import Verif.Plane.Line
import Verif.Aabb.Model
import Mathlib.Data.List.Sort

/-! Model of the frontend `PolygonDecomposition`, /repo/src/bgem/polygons/polygons.py. Coordinates are in an ordered field `K`,
objects are given by their ids, the decomposition is the model `Verif.Decomp`, the two box tables are the model `Verif.Aabb`.
Norms are compared by their squares. Generators marked `undoable` are modelled up to their `yield` (undo.py:46-48): the undo
parts are not run by the calls here. -/

namespace Verif.Front
open Verif.Decomp (St Id HE Geom)
open Verif.Plane (parametric projectPoint intersection dist2)

/-- Exceptions: of the decomposition, of the box tables, a missing id of `points`, `segments` or `polygons`, a failed `assert`,
an attribute of `None`, a result `None` that is unpacked, the failed import in polygons.py:434, the limit of recursion. -/
inductive Err where
  | dec (e : Verif.Decomp.Err)
  | box (e : Verif.Aabb.Err)
  | keyError
  | assertion
  | attributeError
  | noneUsed
  | notInside
  | recursion
  deriving DecidableEq

/-- `PolygonDecomposition` (polygons.py:60-68). `bnd e` is `segment.attr.boundary`, `none` while `attr` is `None`
(idmap.py:11, polygons.py:516). Attributes of points and polygons are not read by the frontend and left out. -/
structure Fr (K : Type) where
  dec : St K
  pl : Verif.Aabb.Lookup K
  sl : Verif.Aabb.Lookup K
  tol : K
  bnd : Id → Option Bool

/-- What the frontend takes from outside: the geometry of the decomposition, `la.norm` of one vector (polygons.py:403), the
constant of `seg_intersection` (polygons.py:743), the order in which a Python set of points is run through (polygons.py:484) and
the limit of recursion. -/
structure Cfg (K : Type) where
  geo : Geom K
  nrm : K × K → K
  eps : K
  order : List Id → List Id
  depth : Nat

section
variable {K : Type}

/-- Exceptions of the decomposition go through. -/
def liftD {α : Type} : Except Verif.Decomp.Err α → Except Err α
  | .ok a => .ok a
  | .error e => .error (.dec e)

/-- Exceptions of the box tables go through. -/
def liftB {α : Type} : Except Verif.Aabb.Err α → Except Err α
  | .ok a => .ok a
  | .error e => .error (.box e)

/-- Item of a dictionary with the id `i`, as `self.points[i]`. -/
def key (m : Verif.Decomp.Ids) (i : Id) : Except Err Unit := if i ∈ m.live then .ok () else .error .keyError

/-- `assert b`. -/
def check (b : Prop) [Decidable b] : Except Err Unit := if b then .ok () else .error .assertion

/-- Value that must not be `None`. -/
def need {α : Type} (e : Err) : Option α → Except Err α
  | some a => .ok a
  | none => .error e

/-- A pair as a point of the box table. -/
def toPt (p : K × K) : Verif.Aabb.Pt K := ⟨p.1, p.2⟩

/-- Difference of two points. -/
def sub [Sub K] (p q : K × K) : K × K := (p.1 - q.1, p.2 - q.2)

/-- Scalar product. -/
def dot [Add K] [Mul K] (p q : K × K) : K := p.1 * q.1 + p.2 * q.2

variable [Field K] [LinearOrder K]

/-- `PolygonDecomposition.__init__` (polygons.py:60-68); the tables are of the default size (aabb_lookup.py:29). -/
def init (inf rt2 tol : K) : Fr K where
  dec := Verif.Decomp.init
  pl := .new inf rt2 128
  sl := .new inf rt2 128
  tol := tol
  bnd := fun _ => none

/-- `make_aabb` of points with the tolerance as margin (polygons.py:629, 638, 665). -/
def boxOf (f : Fr K) (l : List (K × K)) : Except Err (Verif.Aabb.Box K) := liftB (Verif.Aabb.makeAabb (l.map toPt) f.tol)

/-- `norm < c` for a norm with the square `q`. -/
def normLt (q c : K) : Prop := 0 < c ∧ q < c * c

instance (q c : K) : Decidable (normLt q c) := by unfold normLt; infer_instance

/-- `t * norm < c` for a norm with the square `q`. -/
def scaledLt (t q c : K) : Prop := if 0 < c then t ≤ 0 ∨ t * t * q < c * c else t < 0 ∧ c * c < t * t * q

instance (t q c : K) : Decidable (scaledLt t q c) := by unfold scaledLt; infer_instance

/-! ### The methods that change the decomposition and the tables -/

/-- `_add_point` (polygons.py:625-630). -/
def addPt (xy : K × K) (q : Id) (f : Fr K) : Except Err (Id × Fr K) := do
  key f.dec.qid q
  let r := Verif.Decomp.addFreePoint xy q f.dec
  let b ← boxOf f [xy]
  .ok (r.1, { f with dec := r.2, pl := f.pl.add r.1 b })

/-- `_add_segment` (polygons.py:634-639). A new segment has no attribute. -/
def addSegment (c : Cfg K) (a b : Id) (f : Fr K) : Except Err (Id × Fr K) := do
  key f.dec.pid a
  key f.dec.pid b
  let r ← liftD (Verif.Decomp.newSegment c.geo a b f.dec)
  let x ← boxOf f [f.dec.xy a, f.dec.xy b]
  .ok (r.1, { f with
    dec := r.2
    sl := f.sl.add r.1 x
    bnd := if r.1 ∈ f.dec.sid.live then f.bnd else Function.update f.bnd r.1 none })

/-- `_rm_point` (polygons.py:643-648). -/
def rmPt (p : Id) (f : Fr K) : Except Err (Fr K) := do
  key f.dec.pid p
  let pl ← liftB (f.pl.rm p)
  let d ← liftD (Verif.Decomp.removeFreePoint p f.dec)
  .ok { f with dec := d, pl := pl }

/-- `_rm_segment` (polygons.py:652-657), which is `delete_segment` (polygons.py:131-138). -/
def rmSegment (c : Cfg K) (e : Id) (f : Fr K) : Except Err (Fr K) := do
  key f.dec.sid e
  let sl ← liftB (f.sl.rm e)
  let d ← liftD (Verif.Decomp.deleteSegment c.geo e f.dec)
  .ok { f with dec := d, sl := sl }

/-- `_split_segment` (polygons.py:661-669). The box of the old segment stays, the new segment has the attribute of the old one
(decomp.py:273). -/
def splitSegment (e mid : Id) (f : Fr K) : Except Err (Id × Fr K) := do
  key f.dec.sid e
  key f.dec.pid mid
  let r ← liftD (Verif.Decomp.splitSegment e mid f.dec)
  let x ← boxOf f [r.2.xy (r.2.vtx (r.1, false)), r.2.xy (r.2.vtx (r.1, true))]
  .ok (r.1, { f with
    dec := r.2
    sl := f.sl.add r.1 x
    bnd := Function.update f.bnd r.1 (f.bnd e) })

/-! ### Snapping -/

/-- Result of `_snap_point` (polygons.py:360-364). -/
inductive Snap (K : Type) where
  | point (p : Id)
  | segment (e : Id) (t : K)
  | polygon (q : Id)
  deriving DecidableEq

/-- The first of the candidates nearer than the tolerance (polygons.py:371-374). -/
def firstNear (f : Fr K) (x : K × K) : List Id → Except Err (Option Id)
  | [] => .ok none
  | p :: ps => do
    key f.dec.pid p
    if normLt (dist2 (f.dec.xy p) x) f.tol then .ok (some p) else firstNear f x ps

/-- Square of the distance, segment and parameter of one candidate (polygons.py:381-385). -/
def segDist (f : Fr K) (x : K × K) (e : Id) : Except Err (K × Id × K) := do
  key f.dec.sid e
  let o := f.dec.xy (f.dec.vtx (e, false))
  let t ← liftD (projectPoint (f.dec.vec e) o x)
  .ok (dist2 x (parametric o (f.dec.vec e) t), e, t)

/-- The list `close_segments` in the order of the distances (polygons.py:378-386). The sort of Python is stable, so is this one.
The entry `(inf, None, 0)` is after all others and left out. -/
def closeSegments (f : Fr K) (x : K × K) : Except Err (List (K × Id × K)) := do
  let cs ← liftB (f.sl.closest (toPt x))
  let l ← cs.mapM (segDist f x)
  .ok (l.insertionSort fun a b => a.1 ≤ b.1)

/-- Parameter on the segment `ea` far enough from the segment `eb` (polygons.py:395-408). A zero denominator gives `inf` or `nan`
in numpy, for which the assert fails. -/
def awayFrom (c : Cfg K) (f : Fr K) (x : K × K) (ea eb : Id) : Except Err K := do
  let xa := f.dec.xy (f.dec.vtx (ea, false))
  let ua := f.dec.vec ea
  let xb := f.dec.xy (f.dec.vtx (eb, false))
  let ub := f.dec.vec eb
  let n := c.nrm (ub.2, -ub.1)
  let nb : K × K := (ub.2 / n, -ub.1 / n)
  let nb : K × K := if dot nb (sub x xb) < 0 then (-nb.1, -nb.2) else nb
  check (dot ua nb ≠ 0)
  let t := (f.tol - dot (sub xa xb) nb) / dot ua nb
  let xt := parametric xa ua t
  let tb ← liftD (projectPoint ub xb xt)
  check (f.tol * (99 / 100) * (f.tol * (99 / 100)) < dist2 xt (parametric xb ub tb))
  .ok t

/-- No wire of the list has the point inside (polygon.py:62-64). -/
def noneContains (s : St K) (x : K × K) : List Id → Except Verif.Decomp.Err Bool
  | [] => .ok true
  | w :: ws => do
    let b ← Verif.Decomp.containsPoint s w x
    if b then .ok false else noneContains s x ws

/-- `Polygon.contains_point` (polygon.py:54-65). -/
def polyContains (s : St K) (q : Id) (x : K × K) : Except Verif.Decomp.Err Bool := do
  let b ← Verif.Decomp.containsPoint s (s.outer q) x
  if b then noneContains s x (s.childs (s.outer q)) else .ok false

/-- Polygon next to the closest segment `e` with the parameter `t` (polygons.py:419-432). `insert_vector` of a point without
segments gives `None`, which can not be unpacked. -/
def polygonBy (c : Cfg K) (f : Fr K) (x : K × K) (e : Id) (t : K) : Except Err Id :=
  let s := f.dec
  if t = 0 ∨ t = 1 then do
    let p := s.vtx (e, if t = 0 then false else true)
    let i ← liftD (Verif.Decomp.insertVector c.geo s p (sub x (s.xy p)))
    let i ← need .noneUsed i
    liftD (do
      let w ← Verif.Decomp.need i.2.2
      Verif.Decomp.need (s.wpoly w))
  else do
    let v := s.vec e
    let n := dot (sub x (s.xy (s.vtx (e, false)))) (v.2, -v.1)
    check (n ≠ 0)
    liftD (Verif.Decomp.polyAt s (e, if 0 < n then false else true))

/-- `_snap_point` (polygons.py:356-440). A polygon that does not contain the point ends in a failed import or in `assert False`
(polygons.py:433-437), both are `notInside`. The outer polygon has the id 0 (decomp.py:71-73). -/
def snapPoint (c : Cfg K) (x : K × K) (f : Fr K) : Except Err (Snap K) := do
  let cs ← liftB (f.pl.closest (toPt x))
  let p ← firstNear f x cs
  match p with
  | some p => .ok (.point p)
  | none => do
    let l ← closeSegments f x
    match l with
    | [] => do
      check (f.dec.sid.live = [])
      .ok (.polygon 0)
    | (d, e, t) :: rest =>
      if normLt d f.tol then
        match rest.filter (fun r => normLt r.1 f.tol) with
        | [] => .ok (.segment e t)
        | r :: _ => do
          let t ← awayFrom c f x e r.2.1
          .ok (.segment e t)
      else do
        let q ← polygonBy c f x e t
        let b ← liftD (polyContains f.dec q x)
        if b then .ok (.polygon q) else .error .notInside

/-! ### Points and lines -/

/-- `_point_on_segment` (polygons.py:541-560): the point and the new segment. -/
def pointOnSegment (e : Id) (t : K) (f : Fr K) : Except Err ((Id × Id) × Fr K) :=
  let v := f.dec.vec e
  if scaledLt t (dot v v) f.tol then .ok ((f.dec.vtx (e, false), e), f)
  else if scaledLt (1 - t) (dot v v) f.tol then .ok ((f.dec.vtx (e, true), e), f)
  else do
    let (mid, f) ← addPt (parametric (f.dec.xy (f.dec.vtx (e, false))) v t) 0 f
    let (n, f) ← splitSegment e mid f
    .ok ((mid, n), f)

/-- `add_point` (polygons.py:324-350). -/
def addPoint (c : Cfg K) (x : K × K) (f : Fr K) : Except Err (Id × Fr K) := do
  let r ← snapPoint c x f
  match r with
  | .point p => .ok (p, f)
  | .segment e t => do
    let (m, f) ← pointOnSegment e t f
    .ok (m.1, f)
  | .polygon q => addPt x q f

/-- Sides of the moving segments (polygons.py:203-208). -/
def movingSegs (s : St K) : List Id → Except Verif.Decomp.Err (List HE)
  | [] => .ok []
  | p :: ps => do
    let l ← (match s.pseg p with
      | none => .ok []
      | some h => Verif.Decomp.around s h)
    let r ← movingSegs s ps
    .ok (l ++ r)

/-- Outer wires of the polygons on both sides of the segments (polygons.py:206-207, 213). The set of polygons is a list. -/
def changedWires (s : St K) : List HE → Except Verif.Decomp.Err (List Id)
  | [] => .ok []
  | h :: hs => do
    let q0 ← Verif.Decomp.polyAt s (h.1, false)
    let q1 ← Verif.Decomp.polyAt s (h.1, true)
    let r ← changedWires s hs
    .ok (s.outer q0 :: s.outer q1 :: r)

/-- The loop that appends childs to the list it runs through (polygons.py:214-216). `n` bounds its length. -/
def withChilds (s : St K) : Nat → List Id → Except Verif.Decomp.Err (List Id)
  | _, [] => .ok []
  | 0, _ :: _ => .error .diverges
  | n + 1, w :: ws => do
    let r ← withChilds s n (ws ++ s.childs w)
    .ok (w :: r)

/-- Segments of the wires that are not moved (polygons.py:217-221). -/
def envelope (s : St K) (moving : List HE) : List Id → Except Verif.Decomp.Err (List Id)
  | [] => .ok []
  | w :: ws => do
    let l ← Verif.Decomp.wireAll s w
    let r ← envelope s moving ws
    .ok ((l.filter fun h => decide (h ∉ moving ∧ Verif.Decomp.flip h ∉ moving)).map Prod.fst ++ r)

/-- Sum of two vectors. -/
def plus (p q : K × K) : K × K := (p.1 + q.1, p.2 + q.2)

/-- New ends of a moving side (polygons.py:234-240). -/
def movedEnds (s : St K) (moving : List HE) (d : K × K) (h : HE) : (K × K) × (K × K) :=
  (plus (s.xy (s.vtx h)) d,
    if Verif.Decomp.flip h ∈ moving then plus (s.xy (s.vtx (Verif.Decomp.flip h))) d else s.xy (s.vtx (Verif.Decomp.flip h)))

/-- No point and no moving segment meets the segment `e` (polygons.py:225-243). -/
def clearOf (eps : K) (s : St K) (ps : List Id) (moving : List HE) (d : K × K) (e : Id) : Bool :=
  let o := s.xy (s.vtx (e, false))
  let v := s.vec e
  ps.all (fun p => (intersection eps o v (s.xy p) (plus (s.xy p) d)).isNone) &&
    moving.all (fun h => (intersection eps o v (movedEnds s moving d h).1 (movedEnds s moving d h).2).isNone)

/-- `check_displacment` (polygons.py:190-244). The loop over childs has the limit `depth` here. The change reported in
`last_polygon_change` is left out: it is only read by `get_last_polygon_changes`. -/
def checkDisplacement (c : Cfg K) (ps : List Id) (d : K × K) (f : Fr K) : Except Err Bool := liftD do
  let moving ← movingSegs f.dec ps
  let ws ← changedWires f.dec moving
  let ws ← withChilds f.dec c.depth ws
  let l ← envelope f.dec moving ws
  .ok (l.all (clearOf c.eps f.dec ps moving d))

/-- `move_points` (polygons.py:246-255). The tables are not changed. -/
def movePoints (d : K × K) : List Id → Fr K → Except Err (Fr K)
  | [], f => .ok f
  | p :: ps, f => do
    let s ← liftD (Verif.Decomp.movePoint p d f.dec)
    movePoints d ps { f with dec := s }

/-- Segments of the point `b` are moved to the point `a` (polygons.py:519-523); `seg_vtxs` with the end `h` replaced. -/
def mergeSegs (c : Cfg K) (a : Id) : List HE → Fr K → Except Err (Fr K)
  | [], f => .ok f
  | h :: hs, f => do
    let o := f.dec.vtx (Verif.Decomp.flip h)
    let f ← rmSegment c h.1 f
    let (_, f) ← (if h.2 then addSegment c o a f else addSegment c a o f)
    mergeSegs c a hs f

/-- `merge_points` (polygons.py:504-531). -/
def mergePoints (c : Cfg K) (a0 b0 : Id) (f : Fr K) : Except Err (Id × Fr K) := do
  let a := if b0 < a0 then b0 else a0
  let b := if b0 < a0 then a0 else b0
  let can ← checkDisplacement c [b] (sub (f.dec.xy a) (f.dec.xy b)) f
  if can then do
    let h ← need .attributeError (f.dec.pseg b)
    let isB ← need .attributeError (f.bnd h.1)
    if isB then .ok (b0, f)
    else do
      let l ← liftD (Verif.Decomp.around f.dec h)
      let f ← mergeSegs c a l f
      let f ← rmPt b f
      .ok (a, f)
  else .ok (b0, f)

/-- An item of the dictionary `line_division` (polygons.py:563-585). -/
structure Div (K : Type) where
  t : K
  mid : Id
  old : Id
  new : Id

/-- `line_division[t1] = item` (polygons.py:584): an item with the same key is replaced. -/
def setDiv (d : Div K) : List (Div K) → List (Div K)
  | [] => [d]
  | x :: xs => if x.t = d.t then d :: xs else x :: setDiv d xs

/-- The loop of `_add_line_seg_intersections` (polygons.py:577-584). -/
def segIsecs (c : Cfg K) (a b : Id) : List Id → List (Div K) → Fr K → Except Err (List (Div K) × Fr K)
  | [], l, f => .ok (l, f)
  | e :: es, l, f => do
    key f.dec.sid e
    match intersection c.eps (f.dec.xy (f.dec.vtx (e, false))) (f.dec.vec e) (f.dec.xy a) (f.dec.xy b) with
    | none => segIsecs c a b es l f
    | some t => do
      let (m, f) ← pointOnSegment e t.1 f
      segIsecs c a b es (setDiv ⟨t.2, m.1, e, m.2⟩ l) f

/-- `_add_line_seg_intersections` (polygons.py:563-585). -/
def lineIsecs (c : Cfg K) (a b : Id) (f : Fr K) : Except Err (List (Div K) × Fr K) := do
  let x ← boxOf f [f.dec.xy a, f.dec.xy b]
  segIsecs c a b (f.sl.intersect x) [] f

/-- The loop of `_add_line_new_segments` over the division in the order of parameters (polygons.py:591-605). -/
def newSegs (c : Cfg K) (b : Id) : Id → List (Div K) → Fr K → Except Err (List Id × Fr K)
  | start, [], f =>
    if start ≠ b then do
      let (e, f) ← addSegment c start b f
      .ok ([e], f)
    else .ok ([], f)
  | start, d :: ds, f =>
    if start = d.mid then newSegs c b start ds f
    else if normLt (dist2 (f.dec.xy start) (f.dec.xy d.mid)) f.tol then do
      let (p, f) ← mergePoints c start d.mid f
      newSegs c b p ds f
    else do
      let (e, f) ← addSegment c start d.mid f
      let (l, f) ← newSegs c b d.mid ds f
      .ok (e :: l, f)

/-- `_add_line_new_segments` (polygons.py:587-605). Keys of a dictionary differ, so the points are not compared by the sort. -/
def lineSegs (c : Cfg K) (a b : Id) (l : List (Div K)) (f : Fr K) : Except Err (List Id × Fr K) :=
  newSegs c b a (l.insertionSort fun x y => x.t ≤ y.t) f

/-- Ends of the candidates that are not left out (polygons.py:480-482). -/
def candidatePts (c : Cfg K) (omit_ : List Id) (f : Fr K) (es : List Id) : Except Err (List Id) := do
  let l ← es.mapM fun e => do
    key f.dec.sid e
    .ok [f.dec.vtx (e, false), f.dec.vtx (e, true)]
  .ok (c.order (l.flatten.dedup.filter fun p => p ∉ omit_))

/-- The first of the points near the line from `a` to `b` (polygons.py:484-489). -/
def snapTo (f : Fr K) (a b : Id) : List Id → Except Err (Option Id)
  | [] => .ok none
  | p :: ps => do
    let v := sub (f.dec.xy b) (f.dec.xy a)
    let t ← liftD (projectPoint v (f.dec.xy a) (f.dec.xy p))
    if normLt (dist2 (f.dec.xy p) (parametric (f.dec.xy a) v t)) f.tol then .ok (some p) else snapTo f a b ps

/-- `add_line_for_points` (polygons.py:464-502); the first argument is the limit of recursion. -/
def addLinePts (c : Cfg K) : Nat → Id → Id → List Id → Fr K → Except Err (List Id × Fr K)
  | 0, _, _, _, _ => .error .recursion
  | n + 1, a, b, om, f =>
    if a = b then .ok ([], f)
    else do
      let x ← boxOf f [f.dec.xy a, f.dec.xy b]
      let cs ← candidatePts c om f (f.sl.intersect x)
      let s ← snapTo f a b cs
      match s with
      | some p => do
        let (l0, f) ← addLinePts c n a p (p :: om) f
        let (l1, f) ← addLinePts c n p b (p :: om) f
        .ok (l0 ++ l1, f)
      | none => do
        let (l, f) ← lineIsecs c a b f
        lineSegs c a b l f

/-- Result of `add_line`: one point or the list of segments (polygons.py:450, 459, 461). -/
inductive LineResult where
  | point (p : Id)
  | segments (l : List Id)
  deriving DecidableEq

/-- `add_line` (polygons.py:443-461). -/
def addLine (c : Cfg K) (x y : K × K) (f : Fr K) : Except Err (LineResult × Fr K) := do
  let (a, f) ← addPoint c x f
  let (b, f) ← addPoint c y f
  if a = b then .ok (.point a, f)
  else do
    let (l, f) ← addLinePts c c.depth a b [a, b] f
    .ok (.segments l, f)

/-- `_rm_segment` for all segments of the list (polygons.py:616-617). -/
def rmSegments (c : Cfg K) : List HE → Fr K → Except Err (Fr K)
  | [], f => .ok f
  | h :: hs, f => do
    let f ← rmSegment c h.1 f
    rmSegments c hs f

/-- `delete_point` (polygons.py:609-618). -/
def deletePoint (c : Cfg K) (p : Id) (f : Fr K) : Except Err (Fr K) := do
  let l ← (match f.dec.pseg p with
    | none => .ok []
    | some h => liftD (Verif.Decomp.around f.dec h))
  let f ← rmSegments c l f
  rmPt p f

/-- `set_attr` of a segment (polygons.py:684-701) with an attribute whose field `boundary` is `b`. -/
def setAttr (e : Id) (b : Option Bool) (f : Fr K) : Except Err (Fr K) := do
  key f.dec.sid e
  .ok { f with bnd := Function.update f.bnd e b }

/-- A call of the frontend. -/
inductive Call (K : Type) where
  | addPoint (x : K × K)
  | addLine (x y : K × K)
  | addLineForPoints (a b : Id) (omit_ : List Id)
  | newSegment (a b : Id)
  | deleteSegment (e : Id)
  | deletePoint (p : Id)
  | mergePoints (a b : Id)
  | movePoints (ps : List Id) (d : K × K)
  | setTolerance (t : K)
  | setAttr (e : Id) (b : Option Bool)

/-- One call; the result is left out. -/
def call (c : Cfg K) (f : Fr K) : Call K → Except Err (Fr K)
  | .addPoint x => do
    let r ← addPoint c x f
    .ok r.2
  | .addLine x y => do
    let r ← addLine c x y f
    .ok r.2
  | .addLineForPoints a b o => do
    let r ← addLinePts c c.depth a b o f
    .ok r.2
  | .newSegment a b => do
    let r ← addSegment c a b f
    .ok r.2
  | .deleteSegment e => rmSegment c e f
  | .deletePoint p => deletePoint c p f
  | .mergePoints a b => do
    let r ← mergePoints c a b f
    .ok r.2
  | .movePoints ps d => movePoints d ps f
  | .setTolerance t => .ok { f with tol := t }
  | .setAttr e b => setAttr e b f

/-- Calls one after another; the first exception stops. -/
def calls (c : Cfg K) : List (Call K) → Fr K → Except Err (Fr K)
  | [], f => .ok f
  | o :: os, f => do
    let f ← call c f o
    calls c os f

end
end Verif.Front
