import Mathlib.Algebra.Order.Field.Basic

/-!
Model of `src/bgem/polygons/aabb_lookup.py`.  Coordinates are in an arbitrary linearly ordered field `K`
(exact arithmetic instead of float64).
-/
namespace Verif.Aabb

variable {K : Type} [Field K] [LinearOrder K]

/-- A row `[min_x, min_y, max_x, max_y]`. -/
structure Box (K : Type) where
  x0 : K
  y0 : K
  x1 : K
  y1 : K
  deriving DecidableEq

/-- A point `[x, y]`. -/
structure Pt (K : Type) where
  x : K
  y : K
  deriving DecidableEq

/-- Exceptions of the lookup. -/
inductive Err where
  | valueError
  | indexError
  | assertionError
  deriving DecidableEq

/-- `make_aabb` (aabb_lookup.py:15-26). `np.min` of an empty array raises `ValueError`. -/
def makeAabb (points : List (Pt K)) (margin : K) : Except Err (Box K) :=
  match points with
  | [] => .error .valueError
  | p :: ps =>
    let box : Box K :=
      { x0 := ps.foldl (fun m q => min m q.x) p.x
        y0 := ps.foldl (fun m q => min m q.y) p.y
        x1 := ps.foldl (fun m q => max m q.x) p.x
        y1 := ps.foldl (fun m q => max m q.y) p.y }
    .ok (if margin > 0 then
      { x0 := box.x0 + margin * -1, y0 := box.y0 + margin * -1, x1 := box.x1 + margin * 1, y1 := box.y1 + margin * 1 }
    else box)

/-- `AABB_Lookup` (aabb_lookup.py:28-42).  `rt2` stands for the value of `np.sqrt(2)`.  The counters `n_added`,
`n_removed` only steer a printed warning and are dropped. -/
structure Lookup (K : Type) where
  inf : K
  rt2 : K
  nBoxes : Nat
  rows : List (Box K)

/-- A row filled by `self.inf` (aabb_lookup.py:32, 55, 65). -/
def infRow (inf : K) : Box K := ⟨inf, inf, inf, inf⟩

/-- `AABB_Lookup.__init__` (aabb_lookup.py:29-42). -/
def Lookup.new (inf rt2 : K) (initSize : Nat) : Lookup K :=
  { inf := inf, rt2 := rt2, nBoxes := 0, rows := List.replicate initSize (infRow inf) }

/-- The doubling loop of `add_object` (aabb_lookup.py:52-56).  With an empty table the Python loop never ends; the model
stops there, and all theorems assume a positive initial size. -/
def grow (inf : K) (id : Nat) (rows : List (Box K)) : List (Box K) :=
  if id ≥ rows.length ∧ 0 < rows.length then grow inf id (rows ++ List.replicate rows.length (infRow inf)) else rows
termination_by id + 1 - rows.length
decreasing_by simp; omega

/-- `AABB_Lookup.add_object` (aabb_lookup.py:44-58). Ids are natural numbers (negative ones would wrap around). -/
def Lookup.add (s : Lookup K) (id : Nat) (box : Box K) : Lookup K :=
  { s with nBoxes := max s.nBoxes (id + 1), rows := (grow s.inf id s.rows).set id box }

/-- `AABB_Lookup.rm_object` (aabb_lookup.py:60-65). -/
def Lookup.rm (s : Lookup K) (id : Nat) : Except Err (Lookup K) :=
  if id < s.rows.length then .ok { s with rows := s.rows.set id (infRow s.inf) } else .error .indexError

/-- One row of `np.max(np.maximum(boxes[:, 0:2] - point, point - boxes[:, 2:4]), axis=1)` (aabb_lookup.py:77). -/
def infDist (p : Pt K) (b : Box K) : K := max (max (b.x0 - p.x) (p.x - b.x1)) (max (b.y0 - p.y) (p.y - b.y1))

/-- One row of `np.maximum(point - c_boxes[:, 0:2], c_boxes[:, 2:4] - point)` with its maximum (aabb_lookup.py:88). -/
def maxDist (p : Pt K) (b : Box K) : K := max (max (p.x - b.x0) (b.x1 - p.x)) (max (p.y - b.y0) (b.y1 - p.y))

/-- `np.where(cond)[0]` on a list of values: the indices, in increasing order. -/
def whereL {α : Type} (d : List α) (cond : α → Bool) : List Nat :=
  (List.range d.length).filter fun i => match d[i]? with
    | some x => cond x
    | none => false

/-- Maximum of a list with its head given (`np.max`). -/
def lmax (a : K) (l : List K) : K := l.foldl max a
/-- Minimum of a list with its head given (`np.amin`). -/
def lmin (a : K) (l : List K) : K := l.foldl min a

/-- One row of `boxes[indices]` (aabb_lookup.py:84): an index beyond the slice raises. -/
def fetchRow (boxes : List (Box K)) (i : Nat) : Except Err (Box K) :=
  match boxes[i]? with
  | some b => .ok b
  | none => .error .indexError

/-- `AABB_Lookup.closest_candidates` (aabb_lookup.py:67-92). -/
def Lookup.closest (s : Lookup K) (p : Pt K) : Except Err (List Nat) :=
  let boxes := s.rows.take s.nBoxes
  if boxes.length = 0 then .ok []
  else
    let d := s.rows.map (infDist p)
    match d with
    | [] => .error .valueError
    | d0 :: ds =>
      let m := lmin d0 ds
      let cb : Except Err (List (Box K)) :=
        if m > 0 then
          let i := d.findIdx (fun x => decide (x = m))
          .ok ((boxes.drop i).take 1)
        else
          (whereL d (fun x => decide (x ≤ 0))).mapM (fetchRow boxes)
      match cb with
      | .error e => .error e
      | .ok [] => .error .assertionError
      | .ok (c :: cs) =>
        let l := lmax (maxDist p c) (cs.map (maxDist p))
        .ok (whereL d (fun x => decide (x < s.rt2 * l)))

/-- `AABB_Lookup.intersect_candidates` (aabb_lookup.py:95-105). -/
def Lookup.intersect (s : Lookup K) (q : Box K) : List Nat :=
  whereL (s.rows.take s.nBoxes) fun b =>
    ! ((decide (q.x1 < b.x0) || decide (b.x1 < q.x0)) || (decide (q.y1 < b.y0) || decide (b.y1 < q.y0)))

/-- A call that changes the table. -/
inductive Op (K : Type) where
  | add (id : Nat) (box : Box K)
  | rm (id : Nat)

/-- One call; an exception of `rm_object` leaves the table as it is. -/
def step (s : Lookup K) : Op K → Lookup K
  | .add id box => s.add id box
  | .rm id => match s.rm id with
    | .ok s' => s'
    | .error _ => s

/-- Calls one after another. -/
def run (s : Lookup K) (ops : List (Op K)) : Lookup K := ops.foldl step s

end Verif.Aabb
