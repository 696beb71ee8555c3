import Mathlib.Algebra.Order.Field.Basic
import Mathlib.Logic.Function.Basic

/-!
Model of `src/bgem/polygons/decomp.py`, `point.py`, `segment.py` and `polygon.py`: the half-edge structure of a plane
decomposition. Coordinates are elements of an ordered field `K`; `np.angle` is an arbitrary function.
Object references are ids; a removed object keeps its record until its id is used again.
-/
namespace Verif.Decomp

/-- Id given by an `IdMap` (idmap.py:38-42). -/
abbrev Id := Nat

/-- Pair (segment, side) or (segment, vertex index): `false` is `out_vtx = right_side = 0`, `true` is
`in_vtx = left_side = 1` (segment.py:3-6). -/
abbrev HE := Nat × Bool

/-- Exceptions: a failed `assert`, a missing key of a dict or a set, use of `None`. `diverges` stands for an endless loop. -/
inductive Err where
  | assertion
  | keyError
  | noneUsed
  | diverges
  deriving DecidableEq, Repr

/-- `IdMap` (idmap.py:23-29): `nxt` is `_next_id + 1`, `free` is `_free_ids` with its right end first, `live` are the keys
in the order of insertion. -/
structure Ids where
  nxt : Nat
  free : List Id
  live : List Id
  deriving DecidableEq, Repr

/-- `IdMap.append` (idmap.py:32-42): the id given and the new map. -/
def Ids.append (m : Ids) : Id × Ids :=
  match m.free with
  | i :: rest => (i, { nxt := m.nxt, free := rest, live := m.live ++ [i] })
  | [] => (m.nxt, { nxt := m.nxt + 1, free := [], live := m.live ++ [m.nxt] })

/-- `IdMap.remove` (idmap.py:44-46). -/
def Ids.remove (m : Ids) (i : Id) : Except Err Ids :=
  if i ∈ m.live then .ok { nxt := m.nxt, free := i :: m.free, live := m.live.erase i } else .error .keyError

/-- Value of `last_polygon_change` (decomp.py:9-15, 78): the lists of the kind `shape` hold one polygon. -/
inductive Change where
  | none
  | shape (q : Option Id)
  | add (q q' : Id)
  | remove (q q' : Id)
  | split (q q' : Id)
  | join (q q' : Id)
  deriving DecidableEq, Repr

/-- State of a `Decomposition` (decomp.py:50-82) with the attributes of its points (point.py:8-14), segments
(segment.py:11-20), wires (polygon.py:71-80) and polygons (polygon.py:7-12). Sets are lists without repetition.
Simplification: the `attr` attributes and the unused `tolerance` are left out. -/
structure St (K : Type) where
  /-- Keys of `points`. -/
  pid : Ids
  /-- Keys of `segments`. -/
  sid : Ids
  /-- Keys of `wires`. -/
  wid : Ids
  /-- Keys of `polygons`. -/
  qid : Ids
  /-- `Point.xy`. -/
  xy : Id → K × K
  /-- `Point.poly`. -/
  ppoly : Id → Option Id
  /-- `Point.segment`. -/
  pseg : Id → Option HE
  /-- `Segment.vtxs`. -/
  vtx : HE → Id
  /-- `Segment.next`. -/
  next : HE → Option HE
  /-- `Segment.wire`. -/
  wire : HE → Option Id
  /-- `Segment._vector`. -/
  vec : Id → K × K
  /-- `pt_to_seg`. -/
  table : Id × Id → Option Id
  /-- `Wire.parent`. -/
  parent : Id → Option Id
  /-- `Wire.childs`. -/
  childs : Id → List Id
  /-- `Wire.polygon`. -/
  wpoly : Id → Option Id
  /-- `Wire.segment`. -/
  wseg : Id → Option HE
  /-- `Polygon.outer_wire`. -/
  outer : Id → Id
  /-- `Polygon.free_points`. -/
  fpts : Id → List Id
  /-- `last_polygon_change`. -/
  change : Change

/-- Number operations outside of the ordered field: `np.angle`, `2 * np.pi`, the constant `1e-10` of the asserts
(decomp.py:188, point.py:58) and the constant `eps` of `contains_wire` (polygon.py:213). -/
structure Geom (K : Type) where
  ang : K × K → K
  twoPi : K
  tiny : K
  eps : K

section
variable {K : Type}

/-- The other side of the same segment, or the other end. -/
def flip (h : HE) : HE := (h.1, !h.2)

/-- `f` changed at `a`. -/
abbrev upd {α β : Type} [DecidableEq α] (f : α → β) (a : α) (b : β) : α → β := Function.update f a b

/-- Value of an attribute that must not be `None`. -/
def need {α : Type} : Option α → Except Err α
  | some a => .ok a
  | none => .error .noneUsed

/-- `assert b`. -/
def check (b : Prop) [Decidable b] : Except Err Unit := if b then .ok () else .error .assertion

/-- `set.add`. -/
def insertSet (i : Id) (l : List Id) : List Id := if i ∈ l then l else l ++ [i]

/-- `set.remove`. -/
def removeSet (i : Id) (l : List Id) : Except Err (List Id) :=
  if i ∈ l then .ok (l.erase i) else .error .keyError

/-- Bound for the length of loops: there are at most twice as many segment sides as ids given. -/
def fuel (s : St K) : Nat := 2 * s.sid.nxt + 1

/-! ### Points -/

/-- `Point.segments(start)` (point.py:29-46): the ends of segments around a point, from `start` until it comes again. -/
def aroundGo (s : St K) (start : HE) : Nat → HE → Except Err (List HE)
  | 0, _ => .error .diverges
  | n + 1, h => do
    let k ← need (s.next h)
    if flip k = start then .ok [h]
    else do
      let l ← aroundGo s start n (flip k)
      .ok (h :: l)

/-- `Point.segments(start)` (point.py:29-46). -/
def around (s : St K) (start : HE) : Except Err (List HE) := aroundGo s start (fuel s) start

/-- The loop of `Point.rm_segment` (point.py:102-105): the first end around the point that is not of the segment `e`. -/
def firstOther (s : St K) (start : HE) (e : Id) : Nat → HE → Except Err (Option HE)
  | 0, _ => .error .diverges
  | n + 1, h =>
    if h.1 ≠ e then .ok (some h)
    else do
      let k ← need (s.next h)
      if flip k = start then .ok none else firstOther s start e n (flip k)

/-- The lines `if self.poly is not None: self.poly.free_points.remove(self)` (point.py:92-93, 110-111). -/
def leavePoly (p : Id) (s : St K) : Except Err (St K) :=
  match s.ppoly p with
  | none => .ok s
  | some q0 => do
    let l ← removeSet p (s.fpts q0)
    .ok { s with fpts := upd s.fpts q0 l }

/-- `Point.set_polygon` (point.py:109-114). -/
def setPolygon (p q : Id) (s : St K) : Except Err (St K) := do
  let s ← leavePoly p s
  .ok { s with
    ppoly := upd s.ppoly p (some q)
    fpts := upd s.fpts q (insertSet p (s.fpts q))
    pseg := upd s.pseg p none }

/-- `Point.join_segment` (point.py:87-95), called on `seg.vtxs[vtx]`. -/
def joinSegment (h : HE) (s : St K) : Except Err (St K) :=
  let p := s.vtx h
  match s.pseg p with
  | some _ => .ok s
  | none => do
    let s ← leavePoly p s
    .ok { s with
      ppoly := upd s.ppoly p none
      pseg := upd s.pseg p (some h) }

/-- `Segment.is_dendrite` (segment.py:60-61). -/
def isDendrite (s : St K) (e : Id) : Prop := s.wire (e, true) = s.wire (e, false)

instance (s : St K) (e : Id) : Decidable (isDendrite s e) := by unfold isDendrite; infer_instance

/-- Polygon of the wire on one side of a segment. -/
def polyAt (s : St K) (h : HE) : Except Err Id := do
  let w ← need (s.wire h)
  need (s.wpoly w)

/-- An end at the point of `h` that is not of the segment of `h`, if there is one (point.py:102-105). -/
def otherAt (s : St K) (h : HE) : Except Err (Option HE) :=
  match s.pseg (s.vtx h) with
  | none => .ok none
  | some start => firstOther s start h.1 (fuel s) start

/-- `Point.rm_segment` (point.py:97-107), called on `seg.vtxs[vtx]`, so its first assert holds. -/
def rmSegment (h : HE) (s : St K) : Except Err (St K) := do
  let other ← otherAt s h
  match other with
  | some d => .ok { s with pseg := upd s.pseg (s.vtx h) (some d) }
  | none => do
    check (isDendrite s h.1)
    let q ← polyAt s (h.1, true)
    setPolygon (s.vtx h) q s

/-! ### Segments -/

/-- Insert information (prev side, next side, wire) of point.py:54-57. -/
abbrev Ins := HE × HE × Option Id

/-- `Segment.previous(side)` (segment.py:78-89): the last end of the loop around the start point of the side. -/
def previous (s : St K) (h : HE) : Except Err HE := do
  let l ← around s (flip h)
  need l.getLast?

/-- `Segment._set_next_side` (segment.py:104-110). -/
def setNext (h k : HE) (s : St K) : Except Err (St K) := do
  check (s.vtx (flip k) = s.vtx h)
  .ok { s with next := upd s.next h (some k) }

/-- `Segment.connect_vtx` (segment.py:112-127). -/
def connectVtx (h : HE) (i : Ins) (s : St K) : Except Err (St K) := do
  let s ← joinSegment h s
  let s ← setNext h i.2.1 s
  let s ← setNext i.1 (flip h) s
  .ok { s with wire := upd s.wire h i.2.2 }

/-- `Segment.connect_free_vtx` (segment.py:130-140). -/
def connectFree (h : HE) (w : Option Id) (s : St K) : Except Err (St K) := do
  let s ← joinSegment h s
  let s ← setNext h (flip h) s
  .ok { s with wire := upd s.wire h w }

/-- `Segment.vtx_insert_info` (segment.py:142-155). -/
def vtxInsertInfo (s : St K) (h : HE) : Except Err (Option Ins) := do
  let k ← need (s.next h)
  if k.1 = h.1 then .ok none
  else do
    let p ← previous s (flip h)
    .ok (some (p, k, s.wire h))

/-- `Segment.disconnect_vtx` (segment.py:157-168). -/
def disconnectVtx (h : HE) (s : St K) : Except Err (St K) := do
  let s ← rmSegment h s
  let p ← previous s (flip h)
  let s : St K := { s with next := upd s.next p (s.next h) }
  .ok { s with next := upd s.next h (some (flip h)) }

/-- One turn of the loop of `Segment.disconnect_wires` (segment.py:174-182). -/
def disconnectWire (h : HE) (s : St K) : Except Err (St K) := do
  let w ← need (s.wire h)
  if s.wseg w = some h then do
    let k ← need (s.next h)
    let k ← (if k.1 = h.1 then need (s.next k) else .ok k)
    check (s.wire k = some w)
    check (k.1 ≠ h.1)
    .ok { s with wseg := upd s.wseg w (some k) }
  else .ok s

/-- `Segment.disconnect_wires` (segment.py:170-182). -/
def disconnectWires (e : Id) (s : St K) : Except Err (St K) := do
  let s ← disconnectWire (e, true) s
  disconnectWire (e, false) s

/-! ### Wires -/

/-- The first part of `Wire.set_parent` (polygon.py:106-108). -/
def leaveParent (w : Id) (s : St K) : Except Err (St K) :=
  match s.parent w with
  | none => .ok s
  | some q => do
    check (w ∈ s.childs q ∨ q = w)
    .ok { s with childs := upd s.childs q ((s.childs q).erase w) }

/-- `Wire.set_parent` (polygon.py:105-111). -/
def setParent (w : Id) (par : Option Id) (s : St K) : Except Err (St K) := do
  let s ← leaveParent w s
  let s : St K := { s with parent := upd s.parent w par }
  match par with
  | none => .ok s
  | some q => .ok { s with childs := upd s.childs q (insertSet w (s.childs q)) }

/-- `set_parent` called for the wires of a list. -/
def setParents (par : Option Id) : List Id → St K → Except Err (St K)
  | [], s => .ok s
  | c :: cs, s => do
    let s ← setParent c par s
    setParents par cs s

/-- The loop of `Wire.segments` (polygon.py:152-159). -/
def walkGo (s : St K) (start stop : HE) : Nat → HE → Except Err (List HE)
  | 0, _ => .error .diverges
  | n + 1, h => do
    let k ← need (s.next h)
    if k = stop then .ok [h]
    else do
      check (k ≠ start)
      let l ← walkGo s start stop n k
      .ok (h :: l)

/-- `Wire.segments(start, end)` with both arguments given (polygon.py:140-159). -/
def wireSegments (s : St K) (w : Id) (start stop : HE) : Except Err (List HE) :=
  if s.parent w = none then .ok [] else walkGo s start stop (fuel s) start

/-- `Wire.segments()` (polygon.py:140-159). -/
def wireAll (s : St K) (w : Id) : Except Err (List HE) :=
  if s.parent w = none then .ok []
  else do
    let d ← need (s.wseg w)
    walkGo s d d (fuel s) d

/-- The body `assert seg.wire[side] == old; seg.wire[side] = new` over a list of segment sides (decomp.py:463-465). -/
def relabel (old new : Id) : List HE → St K → Except Err (St K)
  | [], s => .ok s
  | h :: hs, s => do
    check (s.wire h = some old)
    relabel old new hs { s with wire := upd s.wire h (some new) }

section geometry
variable [Field K] [LinearOrder K]

/-- `Segment.is_on_x_line` for the segment from `a` to `b` (segment.py:185-237). -/
def isOnXLine (a b p : K × K) : Bool :=
  if min a.2 b.2 ≤ p.2 ∧ p.2 < max a.2 b.2 then
    if min a.1 b.1 > p.1 then true
    else if max a.1 b.1 < p.1 then false
    else if b.2 < a.2 then !decide ((p.2 - a.2) * (b.1 - a.1) > (p.1 - a.1) * (b.2 - a.2))
    else decide ((p.2 - a.2) * (b.1 - a.1) > (p.1 - a.1) * (b.2 - a.2))
  else false

/-- `Wire.contains_point` (polygon.py:179-194). -/
def containsPoint (s : St K) (w : Id) (p : K × K) : Except Err Bool :=
  if s.parent w = none then .ok true
  else do
    let l ← wireAll s w
    .ok (decide ((l.filter fun h => isOnXLine (s.xy (s.vtx (h.1, false))) (s.xy (s.vtx (h.1, true))) p).length % 2 = 1))

/-- The test point of `Wire.contains_wire` for a side of a segment (polygon.py:208-214). -/
def sidePoint (g : Geom K) (s : St K) (h : HE) : K × K :=
  let t := s.vec h.1
  let n : K × K := if h.2 then (-t.2, t.1) else (t.2, -t.1)
  let o := s.xy (s.vtx (h.1, false))
  (o.1 + 1 / 2 * t.1 + g.eps * n.1, o.2 + 1 / 2 * t.2 + g.eps * n.2)

/-- `Wire.contains_wire` (polygon.py:196-215). -/
def containsWire (g : Geom K) (s : St K) (w v : Id) : Except Err Bool :=
  if s.parent w = none then .ok true
  else if s.parent v = none then .ok false
  else do
    let d ← need (s.wseg v)
    containsPoint s w (sidePoint g s d)

/-- Angle of the end `h` seen from its point minus the angle of the vector, in the full turn (point.py:67-73). -/
def turn (g : Geom K) (s : St K) (a : K) (h : HE) : K :=
  let v := s.vec h.1
  let d := g.ang (if h.2 then (-v.1, -v.2) else v) - a
  if d < 0 then d + g.twoPi else d

/-- The loop of `Point.insert_vector` (point.py:66-79): the first pair of neighbours where the angle does not drop. -/
def insertGo (g : Geom K) (s : St K) (a : K) (last : K) (lastH : Option HE) : List HE → Except Err (HE × HE)
  | [] => .error .noneUsed
  | h :: hs =>
    let d := turn g s a h
    if last ≤ d then do
      let p ← need lastH
      .ok (p, flip h)
    else insertGo g s a d (some h) hs

/-- `Point.insert_vector` (point.py:48-82). A missing `prev` (no break in the loop) is `noneUsed`. -/
def insertVector (g : Geom K) (s : St K) (p : Id) (v : K × K) : Except Err (Option Ins) := do
  check (g.tiny < |v.1| ∨ g.tiny < |v.2|)
  match s.pseg p with
  | none => .ok none
  | some d => do
    let l ← around s d
    let r ← insertGo g s (g.ang v) (2 * g.twoPi) none (l ++ [d])
    .ok (some (r.1, r.2, s.wire r.1))

end geometry

/-! ### Changes of the decomposition -/

/-- A new `Wire` put in `wires` (polygon.py:71-80, idmap.py:38-42). -/
def newWireObj (s : St K) : Id × St K :=
  let w := s.wid.append.1
  (w, { s with
    wid := s.wid.append.2
    parent := upd s.parent w (some w)
    childs := upd s.childs w []
    wpoly := upd s.wpoly w none
    wseg := upd s.wseg w none })

/-- `Decomposition.__init__` (decomp.py:50-82): root wire 0 and outer polygon 0. -/
def init [Zero K] : St K where
  pid := { nxt := 0, free := [], live := [] }
  sid := { nxt := 0, free := [], live := [] }
  wid := { nxt := 1, free := [], live := [0] }
  qid := { nxt := 1, free := [], live := [0] }
  xy := fun _ => (0, 0)
  ppoly := fun _ => none
  pseg := fun _ => none
  vtx := fun _ => 0
  next := fun _ => none
  wire := fun _ => none
  vec := fun _ => (0, 0)
  table := fun _ => none
  parent := fun _ => none
  childs := fun _ => []
  wpoly := fun w => if w = 0 then some 0 else none
  wseg := fun _ => none
  outer := fun _ => 0
  fpts := fun _ => []
  change := .add 0 0

/-- `Decomposition.add_free_point` (decomp.py:160-169). -/
def addFreePoint (xy : K × K) (q : Id) (s : St K) : Id × St K :=
  let p := s.pid.append.1
  (p, { s with
    pid := s.pid.append.2
    xy := upd s.xy p xy
    ppoly := upd s.ppoly p (some q)
    pseg := upd s.pseg p none
    fpts := upd s.fpts q (insertSet p (s.fpts q)) })

/-- `Decomposition.remove_free_point` (decomp.py:171-175). -/
def removeFreePoint (p : Id) (s : St K) : Except Err (St K) := do
  check (s.ppoly p ≠ none)
  let q ← need (s.ppoly p)
  check (s.pseg p = none)
  let l ← removeSet p (s.fpts q)
  let m ← s.pid.remove p
  .ok { s with
    fpts := upd s.fpts q l
    pid := m }

section
variable [Field K]

/-- `Decomposition._make_segment` (decomp.py:684-692) with `Segment.__init__` (segment.py:11-24). -/
def makeSegment (a b : Id) (s : St K) : Except Err (Id × St K) := do
  check (a ≠ b)
  let e := s.sid.append.1
  let s : St K := { s with
    sid := s.sid.append.2
    vtx := upd (upd s.vtx (e, false) a) (e, true) b
    wire := upd (upd s.wire (e, false) none) (e, true) none
    next := upd (upd s.next (e, false) none) (e, true) none
    vec := upd s.vec e ((s.xy b).1 - (s.xy a).1, (s.xy b).2 - (s.xy a).2) }
  let s ← joinSegment (e, false) s
  let s ← joinSegment (e, true) s
  .ok (e, { s with table := upd s.table (a, b) (some e) })

/-- `Decomposition._destroy_segment` (decomp.py:694-700). -/
def destroySegment (e : Id) (s : St K) : Except Err (St K) := do
  let s ← rmSegment (e, false) s
  let s ← rmSegment (e, true) s
  let a := s.vtx (e, false)
  let b := s.vtx (e, true)
  let m ← s.sid.remove e
  .ok { s with
    table := upd (upd s.table (a, b) none) (b, a) none
    sid := m }

/-- `Decomposition._new_wire` (decomp.py:353-366). -/
def newWire (q a b : Id) (s : St K) : Except Err (Id × St K) := do
  let w := (newWireObj s).1
  let s := (newWireObj s).2
  let s : St K := { s with wpoly := upd s.wpoly w (some q) }
  let s ← setParent w (some (s.outer q)) s
  let (e, s) ← makeSegment a b s
  let s ← connectFree (e, false) (some w) s
  let s ← connectFree (e, true) (some w) s
  .ok (e, { s with wseg := upd s.wseg w (some (e, false)) })

/-- `Decomposition._rm_wire` (decomp.py:368-379). -/
def rmWire (e : Id) (s : St K) : Except Err (St K) := do
  check (s.next (e, true) = some (e, false) ∧ s.next (e, false) = some (e, true))
  check (isDendrite s e)
  let w ← need (s.wire (e, true))
  let q ← need (s.wpoly w)
  let l ← removeSet w (s.childs (s.outer q))
  let m ← s.wid.remove w
  destroySegment e { s with
    childs := upd s.childs (s.outer q) l
    wid := m }

/-- `Decomposition._wire_add_dendrite` (decomp.py:384-406); `root` is `root_idx`. -/
def wireAddDendrite (a b : Id) (i : Ins) (root : Bool) (s : St K) : Except Err (Id × St K) := do
  let q := s.ppoly (if root then a else b)
  let (e, s) ← makeSegment a b s
  let s ← connectVtx (e, root) i s
  let s ← connectFree (e, !root) i.2.2 s
  .ok (e, { s with change := .shape q })

/-- `Decomposition._wire_rm_dendrite` (decomp.py:408-420). -/
def wireRmDendrite (e : Id) (tip : Bool) (s : St K) : Except Err (St K) := do
  check (isDendrite s e)
  let q ← polyAt s (e, false)
  let s ← disconnectWires e s
  let s ← disconnectVtx (e, !tip) s
  let s ← destroySegment e s
  .ok { s with change := .shape (some q) }

/-- `Decomposition._join_wires` (decomp.py:425-477). -/
def joinWires (a b : Id) (ia ib : Ins) (s : St K) : Except Err (Id × St K) := do
  check (ia.2.2 ≠ ib.2.2)
  let aw ← need ia.2.2
  let bw ← need ib.2.2
  check (s.wpoly aw = s.wpoly bw)
  let q ← need (s.wpoly aw)
  let s : St K := { s with change := .shape (some q) }
  let (e, s) ← makeSegment a b s
  let s ← connectVtx (e, false) ia s
  let s ← connectVtx (e, true) ib s
  let side : Bool := if s.outer q = aw then false else true
  let keep ← need (s.wire (e, side))
  let rm ← need (s.wire (e, !side))
  let par : Option Id := if s.outer q = aw ∨ s.outer q = bw then s.parent keep else some keep
  let s : St K := { s with outer := if s.outer q = aw ∨ s.outer q = bw then upd s.outer q keep else s.outer }
  let l ← wireSegments s rm (e, !side) (e, side)
  let s ← relabel rm keep l s
  let s : St K := { s with wire := upd s.wire (e, false) (some keep) }
  let s ← setParents par (s.childs rm) s
  let rp ← need (s.parent rm)
  let c ← removeSet rm (s.childs rp)
  let m ← s.wid.remove rm
  .ok (e, { s with
    childs := upd s.childs rp c
    wid := m })

/-- Holes of the removed polygon `q'` are given to `q` (decomp.py:655-658). -/
def joinChilds (q q' : Id) : List Id → St K → Except Err (St K)
  | [], s => .ok s
  | c :: cs, s => do
    check (s.wpoly c = some q')
    let s ← setParent c (some (s.outer q)) s
    joinChilds q q' cs { s with wpoly := upd s.wpoly c (some q) }

/-- Free points of the removed polygon are given to `q` (decomp.py:660-661). -/
def movePoints (q : Id) : List Id → St K → Except Err (St K)
  | [], s => .ok s
  | p :: ps, s => do
    let s ← setPolygon p q s
    movePoints q ps s

/-- Choice of the kept polygon, the removed polygon and the kept wire in `_join_poly` (decomp.py:628-650). -/
def joinKind (s : St K) (lw rw lq rq : Id) : Except Err (Id × Id × Id × Change) :=
  if s.parent lw = s.parent rw then do
    check (lw = s.outer lq)
    check (rw = s.outer rq)
    .ok (rq, lq, rw, Change.join rq lq)
  else if s.parent lw = some rw then .ok (rq, lq, rw, Change.remove rq lq)
  else do
    check (s.parent rw = some lw)
    .ok (lq, rq, lw, Change.remove lq rq)

/-- `Decomposition._join_poly` (decomp.py:623-679). -/
def joinPoly (e : Id) (s : St K) : Except Err (St K) := do
  let lw ← need (s.wire (e, true))
  let rw ← need (s.wire (e, false))
  let lq ← need (s.wpoly lw)
  let rq ← need (s.wpoly rw)
  let r ← joinKind s lw rw lq rq
  let q := r.1
  let q' := r.2.1
  let keep := r.2.2.1
  let s : St K := { s with change := r.2.2.2 }
  let rm := s.outer q'
  let s ← joinChilds q q' (s.childs rm) s
  let s ← movePoints q (s.fpts q') s
  let s ← setParent rm (some rm) s
  let l ← wireAll s rm
  let s ← relabel rm keep l s
  let s ← disconnectWires e s
  let s ← disconnectVtx (e, false) s
  let s ← disconnectVtx (e, true) s
  let s ← destroySegment e s
  let m ← s.wid.remove rm
  let n ← s.qid.remove q'
  .ok { s with
    wid := m
    qid := n }

variable [LinearOrder K]

/-- Wires on the other sides of the inner wire get it as parent (decomp.py:521-524). -/
def bubble (g : Geom K) (iw : Id) : List HE → St K → Except Err (St K)
  | [], s => .ok s
  | h :: hs, s => do
    let sw ← need (s.wire (flip h))
    let c ← (if sw = iw then .ok true else containsWire g s iw sw)
    check (c = true)
    let s ← setParent sw (some iw) s
    bubble g iw hs s

/-- Childs of a split hole are given to its parts (decomp.py:532-536). -/
def spread (g : Geom K) (aw bw : Id) : List Id → St K → Except Err (St K)
  | [], s => .ok s
  | c :: cs, s => do
    let inA ← containsWire g s aw c
    let s ← setParent c (some (if inA then aw else bw)) s
    spread g aw bw cs s

/-- Nesting of the two parts of the split outer wire `aw` of the polygon `q` (decomp.py:507-524). -/
def nestOuter (g : Geom K) (q aw bw : Id) (s : St K) : Except Err (St K) := do
  let par := s.parent aw
  let inA ← containsWire g s aw bw
  let ow := if inA then aw else bw
  let iw := if inA then bw else aw
  let s : St K := { s with outer := upd s.outer q ow }
  let s ← setParent ow par s
  let s ← setParent iw (some ow) s
  let s ← setParents (some ow) (s.childs aw) s
  let l ← wireAll s iw
  bubble g iw l s

/-- Nesting of the two parts of the split hole `aw` (decomp.py:507, 528-536). -/
def nestHole (g : Geom K) (aw bw : Id) (s : St K) : Except Err (St K) := do
  let par := s.parent aw
  let s ← setParent aw par s
  let s ← setParent bw par s
  spread g aw bw (s.childs aw) s

/-- Nesting of the two parts of the split wire `aw` (decomp.py:507-536). -/
def nest (g : Geom K) (q aw bw : Id) (s : St K) : Except Err (St K) :=
  if s.outer q = aw then nestOuter g q aw bw s else nestHole g aw bw s

/-- `Decomposition._split_wire` (decomp.py:479-540). -/
def splitWire (g : Geom K) (e : Id) (s : St K) : Except Err (St K) := do
  check (isDendrite s e)
  let aw ← need (s.wire (e, true))
  let q ← need (s.wpoly aw)
  let bw := (newWireObj s).1
  let s := (newWireObj s).2
  let bn ← need (s.next (e, true))
  let l ← wireSegments s aw bn (e, false)
  let s ← relabel aw bw l s
  let s : St K := { s with wseg := upd (upd s.wseg aw (s.next (e, false))) bw (some bn) }
  let s ← disconnectWires e s
  let s ← disconnectVtx (e, false) s
  let s ← disconnectVtx (e, true) s
  let s : St K := { s with wpoly := upd s.wpoly bw (some q) }
  let s ← nest g q aw bw s
  let s : St K := { s with change := .shape (some q) }
  destroySegment e s

/-- Free points inside of the new polygon are given to it (decomp.py:612-614). -/
def splitPoints (q' : Id) : List Id → St K → Except Err (St K)
  | [], s => .ok s
  | p :: ps, s => do
    let c ← containsPoint s (s.outer q') (s.xy p)
    let s ← (if c then setPolygon p q' s else .ok s)
    splitPoints q' ps s

/-- A hole is given to the polygon `q'` (decomp.py:619-620). -/
def giveHole (q' h : Id) (s : St K) : Except Err (St K) := do
  let s ← setParent h (some (s.outer q')) s
  .ok { s with wpoly := upd s.wpoly h (some q') }

/-- Holes inside of the new polygon are given to it (decomp.py:617-620). -/
def splitHoles (g : Geom K) (q' : Id) : List Id → St K → Except Err (St K)
  | [], s => .ok s
  | h :: hs, s => do
    let c ← containsWire g s (s.outer q') h
    let s ← (if c then giveHole q' h s else .ok s)
    splitHoles g q' hs s

/-- Nesting of the parts of the split outer wire `ow` of the polygon `q` (decomp.py:587-591). -/
def cutOuter (q q' ow lw : Id) (s : St K) : Except Err (St K) := do
  let s ← setParent lw (s.parent ow) s
  .ok { s with change := .split q q' }

/-- Nesting of the parts of the split hole `ow` of the polygon `q` (decomp.py:592-609). -/
def cutHole (g : Geom K) (q q' ow lw : Id) (s : St K) : Except Err (St K) := do
  check (s.parent ow = some (s.outer q))
  let inR ← containsWire g s ow lw
  let iw := if inR then lw else ow
  let uw := if inR then ow else lw
  let s ← setParents (some uw) (s.childs ow) s
  let s : St K := { s with
    wpoly := upd (upd s.wpoly uw (some q)) iw (some q')
    outer := upd s.outer q' iw }
  let s ← setParent uw (s.parent ow) s
  let s ← setParent iw (some uw) s
  .ok { s with change := .add q q' }

/-- Nesting of the parts of the split wire `ow` (decomp.py:587-609). -/
def cut (g : Geom K) (q q' ow lw : Id) (s : St K) : Except Err (St K) :=
  if s.outer q = ow then cutOuter q q' ow lw s else cutHole g q q' ow lw s

/-- `Decomposition._split_poly` (decomp.py:556-621). -/
def splitPoly (g : Geom K) (a b : Id) (ia ib : Ins) (s : St K) : Except Err (Id × St K) := do
  check (ia.2.2 = ib.2.2)
  let ow ← need ia.2.2
  let lw := (newWireObj s).1
  let s := (newWireObj s).2
  let (e, s) ← makeSegment a b s
  let s ← connectVtx (e, false) ia s
  let s ← connectVtx (e, true) (ib.1, ib.2.1, some lw) s
  let st ← need (s.next (e, true))
  let l ← wireSegments s ow st (e, true)
  let s ← relabel ow lw l s
  let s : St K := { s with wseg := upd (upd s.wseg lw (some (e, true))) ow (some (e, false)) }
  let q ← need (s.wpoly ow)
  let q' := s.qid.append.1
  let s : St K := { s with
    qid := s.qid.append.2
    outer := upd s.outer q' lw
    fpts := upd s.fpts q' []
    wpoly := upd s.wpoly lw (some q') }
  let s ← cut g q q' ow lw s
  let s ← splitPoints q' (s.fpts q) s
  let s ← splitHoles g q' (s.childs (s.outer q)) s
  .ok (e, s)

/-- `Decomposition.new_segment` (decomp.py:178-220). The norm is compared by its square. -/
def newSegment (g : Geom K) (a b : Id) (s : St K) : Except Err (Id × St K) := do
  check (a ≠ b)
  let v : K × K := ((s.xy b).1 - (s.xy a).1, (s.xy b).2 - (s.xy a).2)
  check (g.tiny * g.tiny < v.1 * v.1 + v.2 * v.2)
  let s : St K := { s with change := .none }
  match s.table (a, b) with
  | some e => .ok (e, s)
  | none =>
    match s.table (b, a) with
    | some e => .ok (e, s)
    | none =>
      if s.pseg a = none ∧ s.pseg b = none then do
        check (s.ppoly a = s.ppoly b)
        let q ← need (s.ppoly a)
        newWire q a b s
      else do
        let ia ← insertVector g s a v
        let ib ← insertVector g s b (-v.1, -v.2)
        if s.pseg a = none then do
          let ib ← need ib
          wireAddDendrite a b ib true s
        else if s.pseg b = none then do
          let ia ← need ia
          wireAddDendrite a b ia false s
        else do
          let ia ← need ia
          let ib ← need ib
          if ia.2.2 ≠ ib.2.2 then joinWires a b ia ib s else splitPoly g a b ia ib s

/-- `Decomposition.delete_segment` (decomp.py:222-247). -/
def deleteSegment (g : Geom K) (e : Id) (s : St K) : Except Err (St K) :=
  let s : St K := { s with change := .none }
  if s.next (e, true) = some (e, false) ∧ s.next (e, false) = some (e, true) then rmWire e s
  else if s.next (e, true) = some (e, false) then wireRmDendrite e true s
  else if s.next (e, false) = some (e, true) then wireRmDendrite e false s
  else if isDendrite s e then splitWire g e s
  else joinPoly e s

/-- `del self.pt_to_seg[key]` (decomp.py:269, 302-303). -/
def delKey (k : Id × Id) (s : St K) : Except Err (St K) :=
  if s.table k = none then .error .keyError else .ok { s with table := upd s.table k none }

/-- An end is connected as told by `vtx_insert_info`; `e` is the segment of the assert, `w` the wire for a free point
(decomp.py:277-281, 323-327). -/
def connectEnd (h : HE) (i : Option Ins) (e : Id) (w : Option Id) (s : St K) : Except Err (St K) :=
  match i with
  | none => do
    check (isDendrite s e)
    connectFree h w s
  | some i => connectVtx h i s

/-- `Decomposition.split_segment` (decomp.py:249-283). -/
def splitSegment (e mid : Id) (s : St K) : Except Err (Id × St K) := do
  let bi ← vtxInsertInfo s (e, true)
  let tip : Ins := ((e, true), (e, false), s.wire (e, false))
  let s ← disconnectVtx (e, true) s
  let a := s.vtx (e, false)
  let b := s.vtx (e, true)
  let s ← delKey (a, b) s
  let s : St K := { s with table := upd s.table (a, mid) (some e) }
  let (n, s) ← makeSegment mid b s
  let s : St K := { s with
    vtx := upd s.vtx (e, true) mid
    vec := upd s.vec e ((s.xy mid).1 - (s.xy a).1, (s.xy mid).2 - (s.xy a).2) }
  let s ← connectVtx (n, false) tip s
  let s ← connectEnd (n, true) bi e (s.wire (e, true)) s
  .ok (n, s)

/-- One turn of the loop that fixes `wire.segment` in `join_segments` (decomp.py:330-333). -/
def fixWireSeg (e0 e1 : Id) (side : Bool) (s : St K) : Except Err (St K) := do
  let w ← need (s.wire (e1, side))
  .ok (if s.wseg w = some (e1, side) then { s with wseg := upd s.wseg w (some (e0, side)) } else s)

/-- `Decomposition.join_segments` (decomp.py:285-341). -/
def joinSegments (mid e0 e1 : Id) (s : St K) : Except Err (St K) := do
  let in0 : Bool := if s.vtx (e0, true) = mid then true else false
  let in1 : Bool := if s.vtx (e1, false) = mid then true else false
  let k1 := (s.vtx (e1, false), s.vtx (e1, true))
  let k0 := (s.vtx (e0, false), s.vtx (e0, true))
  let s ← delKey k1 s
  let s ← delKey k0 s
  check (s.next (e0, in0) = some (e1, in1))
  check (s.next (e1, !in1) = some (e0, !in0))
  let bi ← vtxInsertInfo s (e1, in1)
  let s ← disconnectVtx (e1, in1) s
  let s ← disconnectVtx (e1, !in1) s
  let p ← previous s (e0, !in0)
  let s : St K := { s with next := upd s.next p (s.next (e0, in0)) }
  let s : St K := { s with next := upd s.next (e0, in0) (some (e0, !in0)) }
  let s : St K := { s with vtx := upd s.vtx (e0, in0) (s.vtx (e1, in1)) }
  let s ← connectEnd (e0, in0) bi e0 (s.wire (e0, false)) s
  let s ← fixWireSeg e0 e1 true s
  let s ← fixWireSeg e0 e1 false s
  let s : St K := { s with table := upd s.table (s.vtx (e0, false), s.vtx (e0, true)) (some e0) }
  let s ← destroySegment e1 s
  let q ← polyAt s (e0, true)
  setPolygon mid q s

/-- `Segment.update_vector` over the segments around a point (point.py:124-125, segment.py:23-24). -/
def updateVectors : List HE → St K → St K
  | [], s => s
  | h :: hs, s =>
    let a := s.xy (s.vtx (h.1, false))
    let b := s.xy (s.vtx (h.1, true))
    updateVectors hs { s with vec := upd s.vec h.1 (b.1 - a.1, b.2 - a.2) }

/-- `Point.move` (point.py:117-125). -/
def movePoint (p : Id) (d : K × K) (s : St K) : Except Err (St K) := do
  let s : St K := { s with xy := upd s.xy p ((s.xy p).1 + d.1, (s.xy p).2 + d.2) }
  let l ← (match s.pseg p with
    | none => .ok []
    | some h => around s h)
  .ok (updateVectors l s)

/-- A call on the decomposition. -/
inductive Op (K : Type) where
  | addPoint (xy : K × K) (q : Id)
  | removePoint (p : Id)
  | newSegment (a b : Id)
  | deleteSegment (e : Id)
  | splitSegment (e mid : Id)
  | joinSegments (mid e0 e1 : Id)
  | move (p : Id) (d : K × K)

/-- One call. -/
def step (g : Geom K) (s : St K) : Op K → Except Err (St K)
  | .addPoint xy q => .ok (addFreePoint xy q s).2
  | .removePoint p => removeFreePoint p s
  | .newSegment a b => do
    let r ← newSegment g a b s
    .ok r.2
  | .deleteSegment e => deleteSegment g e s
  | .splitSegment e mid => do
    let r ← splitSegment e mid s
    .ok r.2
  | .joinSegments mid e0 e1 => joinSegments mid e0 e1 s
  | .move p d => movePoint p d s

/-- Calls one after another; the first exception stops. -/
def run (g : Geom K) : List (Op K) → St K → Except Err (St K)
  | [], s => .ok s
  | o :: os, s => do
    let s ← step g s o
    run g os s

end
end
end Verif.Decomp
