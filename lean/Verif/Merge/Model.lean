import Verif.Front.Model

/-! Model of the intersection of decompositions, /repo/src/bgem/polygons/merge.py. The decompositions are the model `Verif.Front`.
Of the second decomposition only the points, segments and polygons are read, so its state `St` is enough. -/

namespace Verif.Merge
open Verif.Decomp (St Id HE)
open Verif.Front (Fr Cfg Err addPoint addSegment mergePoints lineIsecs liftD key check need normLt)

section
variable {β : Type}

/-- A Python dictionary with ids as keys, in the order of insertion. -/
abbrev Dict (β : Type) := List (Id × β)

/-- `d.get(i)`. -/
def get : Dict β → Id → Option β
  | [], _ => none
  | x :: d, i => if x.1 = i then some x.2 else get d i

/-- `d[i] = v`: a key keeps its place, a new one is the last. -/
def set : Dict β → Id → β → Dict β
  | [], i, v => [(i, v)]
  | x :: d, i, v => if x.1 = i then (i, v) :: d else x :: set d i v

/-- `d.setdefault(i, v)`, the changed dictionary. -/
def setDefault (d : Dict β) (i : Id) (v : β) : Dict β :=
  match get d i with
  | some _ => d
  | none => set d i v

end

/-- `d.get(i, i)`. -/
def root (d : Dict Id) (i : Id) : Id := (get d i).getD i

/-- The maps of `intersect_single` (merge.py:72-73). `maps_self[0]` stays empty and is left out. -/
structure Maps where
  self1 : Dict Id
  self2 : Dict Id
  other0 : Dict Id
  other1 : Dict Id
  other2 : Dict (Option Id)
  deriving DecidableEq

/-- Not in the code, for statements about the run: the lines that were divided with the state before, each added piece as the segment
of the other decomposition, the point from which the piece goes and the segment of the result, and the states after each piece. -/
structure Log (K : Type) where
  lines : List (Fr K × Id × Id)
  pieces : List (Id × Id × Id)
  states : List (St K)

section
variable {K : Type} [Field K] [LinearOrder K]

/-- Entries for the segment split by a new point (merge.py:82-88); `n` is the number of points before. -/
def splitMap (n : Nat) (q : Id) (f : Fr K) (m : Maps) : Except Err Maps :=
  match f.dec.pseg q with
  | none => .ok m
  | some h =>
    if n < f.dec.pid.live.length then do
      let k ← need .noneUsed (f.dec.next (h.1, false))
      let k' ← need .noneUsed (f.dec.next (k.1, true))
      check (k'.1 = h.1)
      let d := setDefault m.self1 k.1 k.1
      .ok { m with self1 := set d h.1 (root d k.1) }
    else .ok m

/-- The loop over the points of the other decomposition (merge.py:78-91). The second dictionary is `other_point_map`. -/
def addPoints (c : Cfg K) (o : St K) : List Id → Maps → Dict Id → Fr K → Except Err (Maps × Dict Id × Fr K)
  | [], m, opm, f => .ok (m, opm, f)
  | p :: ps, m, opm, f => do
    let n := f.dec.pid.live.length
    let (q, f) ← addPoint c (o.xy p) f
    let m ← splitMap n q f m
    addPoints c o ps { m with other0 := set m.other0 q p } (set opm p q) f

/-- Entries for the segments divided by a line (merge.py:104-106). -/
def divMaps : List (Verif.Front.Div K) → Maps → Except Err Maps
  | [], m => .ok m
  | d :: ds, m => do
    let m : Maps := { m with self1 := set m.self1 d.new (root m.self1 d.old) }
    check (get m.other1 d.old = none)
    divMaps ds m

/-- Entries of the polygons after a new segment (merge.py:114-120). -/
def changeMaps (ch : Verif.Decomp.Change) (m : Maps) : Except Err Maps :=
  match ch with
  | .remove _ _ => .error .assertion
  | .join _ _ => .error .assertion
  | .add q q' => .ok { m with self2 := set m.self2 q' (root m.self2 q), other2 := set m.other2 q' ((get m.other2 q).getD none) }
  | .split q q' => .ok { m with self2 := set m.self2 q' (root m.self2 q), other2 := set m.other2 q' ((get m.other2 q).getD none) }
  | _ => .ok m

/-- One new segment from `a` to `b` for the segment `o` with the polygons `qr` and `ql` and the entries for it (polygons.py:599-601,
merge.py:109-128). -/
def piece (c : Cfg K) (o qr ql a b : Id) (m : Maps) (g : Log K) (f : Fr K) : Except Err (Maps × Log K × Fr K) := do
  let (e, f) ← addSegment c a b f
  let m : Maps := { m with other1 := set m.other1 e o }
  let m ← changeMaps f.dec.change m
  let back : Bool := decide (f.dec.vtx (e, false) ≠ a)
  let r ← liftD (Verif.Decomp.polyAt f.dec (e, back))
  let m : Maps := { m with other2 := set m.other2 r (some qr) }
  let l ← liftD (Verif.Decomp.polyAt f.dec (e, !back))
  let m : Maps := { m with other2 := set m.other2 l (some ql) }
  .ok (m, { g with pieces := g.pieces ++ [(o, a, e)], states := g.states ++ [f.dec] }, f)

/-- `_add_line_new_segments` with the loop body of `intersect_single` after each `yield` (polygons.py:591-605, merge.py:109-128). -/
def pieces (c : Cfg K) (o qr ql b : Id) : Id → List (Verif.Front.Div K) → Maps → Log K → Fr K → Except Err (Maps × Log K × Fr K)
  | start, [], m, g, f => if start ≠ b then piece c o qr ql start b m g f else .ok (m, g, f)
  | start, d :: ds, m, g, f =>
    if start = d.mid then pieces c o qr ql b start ds m g f
    else if normLt (Verif.Plane.dist2 (f.dec.xy start) (f.dec.xy d.mid)) f.tol then do
      let (p, f) ← mergePoints c start d.mid f
      pieces c o qr ql b p ds m g f
    else do
      let (m, g, f) ← piece c o qr ql start d.mid m g f
      pieces c o qr ql b d.mid ds m g f

/-- The loop over the segments of the other decomposition (merge.py:94-128). -/
def addSegs (c : Cfg K) (s : St K) (opm : Dict Id) : List Id → Maps → Log K → Fr K → Except Err (Maps × Log K × Fr K)
  | [], m, g, f => .ok (m, g, f)
  | e :: es, m, g, f => do
    let a ← need .keyError (get opm (s.vtx (e, false)))
    key f.dec.pid a
    let b ← need .keyError (get opm (s.vtx (e, true)))
    key f.dec.pid b
    if a = b then addSegs c s opm es m g f
    else do
      let qr ← liftD (Verif.Decomp.polyAt s (e, false))
      let ql ← liftD (Verif.Decomp.polyAt s (e, true))
      let g : Log K := { g with lines := g.lines ++ [(f, a, b)] }
      let (l, f) ← lineIsecs c a b f
      let m ← divMaps l m
      let (m, g, f) ← pieces c e qr ql b a (l.insertionSort fun x y => x.t ≤ y.t) m g f
      addSegs c s opm es m g f

/-- Polygons without a value across the sides of the list (merge.py:139-142). -/
def openNext (s : St K) (m : Dict (Option Id)) : List HE → Except Err (List Id)
  | [] => .ok []
  | h :: hs => do
    let q ← liftD (Verif.Decomp.polyAt s (Verif.Decomp.flip h))
    let v ← need .keyError (get m q)
    let l ← openNext s m hs
    .ok (if v = none then q :: l else l)

/-- The loop `while stack` (merge.py:136-142); the list has the top of the stack first. The number bounds the turns. -/
def spread (s : St K) (p : Id) : Nat → List Id → Dict (Option Id) → Except Err (Dict (Option Id))
  | _, [], m => .ok m
  | 0, _ :: _, _ => .error (.dec .diverges)
  | n + 1, q :: st, m => do
    let m := set m q (some p)
    key s.qid q
    let l ← liftD (Verif.Decomp.wireAll s (s.outer q))
    let r ← openNext s m l
    spread s p n (r.reverse ++ st) m

/-- Bound of the turns: each polygon gets its value once. -/
def turns (s : St K) : Nat := 1 + 2 * Verif.Decomp.fuel s * s.qid.live.length + Verif.Decomp.fuel s

/-- The loop over the copy of the items (merge.py:133-142). -/
def spreadAll (s : St K) : Dict (Option Id) → Dict (Option Id) → Except Err (Dict (Option Id))
  | [], m => .ok m
  | (_, none) :: xs, m => spreadAll s xs m
  | (q, some p) :: xs, m => do
    let m ← spread s p (turns s) [q] m
    spreadAll s xs m

/-- Values of all polygons (merge.py:131-142). -/
def fillMap (s : St K) (m : Dict (Option Id)) : Except Err (Dict (Option Id)) :=
  let m := s.qid.live.foldl (fun m q => setDefault m q none) m
  spreadAll s m m

/-- `intersect_single` (merge.py:42-151). When an exception is raised the tolerance is not set back; here there is no result then. -/
def intersectSingle (c : Cfg K) (tol : K) (o : St K) (f : Fr K) : Except Err (Maps × Log K × Fr K) := do
  let f0 : Fr K := { f with tol := tol }
  let (m, opm, f1) ← addPoints c o o.pid.live ⟨[], [], [], [], []⟩ [] f0
  let (m, g, f1) ← addSegs c o opm o.sid.live m ⟨[], [], []⟩ f1
  let d ← fillMap f1.dec m.other2
  .ok ({ m with other2 := d }, g, { f1 with tol := f.tol })

/-- Maps of one decomposition for points, segments and polygons (merge.py:167-168). -/
structure Dims where
  pts : Dict Id
  segs : Dict Id
  polys : Dict Id
  deriving DecidableEq

/-- Items with a value (merge.py:190). -/
def known : Dict (Option Id) → Dict Id
  | [] => []
  | (q, some p) :: d => (q, p) :: known d
  | (_, none) :: d => known d

/-- Entries for the parts of the objects (merge.py:193-196). -/
def compose : Dict Id → Dict Id → Except Err (Dict Id)
  | [], m => .ok m
  | (i, j) :: cs, m =>
    match get m j with
    | none => compose cs m
    | some v => do
      check (get m i = none ∨ i = j)
      compose cs (set m i v)

/-- The loop over the maps of the decompositions before (merge.py:191-196). The map of points is empty. -/
def composeAll (m : Maps) : List Dims → Except Err (List Dims)
  | [] => .ok []
  | d :: ds => do
    let s ← compose m.self1 d.segs
    let q ← compose m.self2 d.polys
    let r ← composeAll m ds
    .ok (⟨d.pts, s, q⟩ :: r)

/-- Every id is a value of the map (merge.py:202-204). -/
def covers (d : Dict Id) (l : List Id) : Prop := ∀ i ∈ l, i ∈ d.map Prod.snd

instance (d : Dict Id) (l : List Id) : Decidable (covers d l) := by unfold covers; infer_instance

/-- The loop over the decompositions (merge.py:182-204). -/
def intersectAll (c : Cfg K) (tol : K) : List (Fr K) → List Dims → Fr K → Except Err (List Dims × Fr K)
  | [], ms, f => .ok (ms, f)
  | o :: os, ms, f => do
    let (m, _, f) ← intersectSingle c tol o.dec f
    let d : Dims := ⟨m.other0, m.other1, known m.other2⟩
    let ms ← composeAll m ms
    check (covers d.pts o.dec.pid.live)
    check (covers d.segs o.dec.sid.live)
    check (covers d.polys o.dec.qid.live)
    intersectAll c tol os (ms ++ [d]) f

/-- `{x.id: x.id for x in l}` (merge.py:176-178). -/
def identity (l : List Id) : Dict Id := l.map fun i => (i, i)

/-- `intersect_decompositions` (merge.py:159-206). `inf` and `rt2` are the numbers of the new tables. -/
def intersectDecompositions (c : Cfg K) (inf rt2 tol : K) (ds : List (Fr K)) : Except Err (List Dims × Fr K) :=
  match ds with
  | [f] => .ok ([⟨identity f.dec.pid.live, identity f.dec.sid.live, identity f.dec.qid.live⟩], f)
  | _ => intersectAll c tol ds [] (Verif.Front.init inf rt2 (1 / 100))

end
end Verif.Merge
