import Mathlib.Algebra.Field.Basic
import Mathlib.Order.Defs.LinearOrder
import Mathlib.Algebra.Order.Field.Basic
/-!
# Model of `SplineBasis`, `Curve` and `Surface` (src/bgem/bspline/bspline.py)

Python floats are modelled by the elements of an ordered field `K` (no rounding, no inf/nan inside arithmetic).
Exceptions are values of `Except Err`. Numpy's silent nan/inf of a zero division is `none` of `npDiv`.
-/
namespace Verif.Spline

set_option linter.unusedSectionVars false

variable {K : Type} [Field K] [LinearOrder K] [IsStrictOrderedRing K]

/-- Python exceptions that can come out of the modelled functions. -/
inductive Err where
  | assertionError | indexError | valueError
  deriving DecidableEq, Repr

/-- bspline.py 60-94, `SplineBasis.__init__`: the object is determined by `degree` and `knots`; the other attributes
(`size`, `domain`, ...) are the functions below. -/
structure Basis (K : Type) where
  degree : Nat
  knots : List K
  deriving DecidableEq

/-- `self.knots[i]`. Simplification: out of range reads give 0 here (IndexError in numpy); every theorem is about
indices inside the range. -/
def Basis.k (B : Basis K) (i : Nat) : K := B.knots.getD i 0

/-- bspline.py 75, `self.size`. Natural subtraction: equal to Python's value for every object `init` accepts. -/
def Basis.size (B : Basis K) : Nat := B.knots.length - B.degree - 1

/-- bspline.py 88, `self.n_intervals`. Natural subtraction: equal to Python's value when `len(knots) >= 2*degree+1`. -/
def Basis.nIntervals (B : Basis K) : Nat := B.size - B.degree

/-- bspline.py 79-82, `self.domain[0]`. -/
def Basis.lo (B : Basis K) : K := B.k B.degree

/-- bspline.py 79-82, `self.domain[1]`. -/
def Basis.hi (B : Basis K) : K := B.k (B.knots.length - B.degree - 1)

/-- bspline.py 70-72, one turn of the loop over the free ends. -/
def checkEnd (knots : List K) (i : Nat) : Except Err Unit :=
  match knots[i]?, knots[i + 1]? with
  | some a, some b =>
    if a = b then
      -- `knots[-i-1]`, `knots[-i-2]`; both are inside the list because `i + 1` is
      if knots.reverse[i]? = knots.reverse[i + 1]? then .ok () else .error .assertionError
    else .error .assertionError
  | _, _ => .error .indexError

/-- bspline.py 60-94, `SplineBasis.__init__` (degree is a natural number, so the first assert holds). For `degree = 0` an
empty knot list fails in `self.knots[self.knots_idx_range]`. -/
def Basis.init (degree : Nat) (knots : List K) : Except Err (Basis K) := do
  (List.range degree).forM (checkEnd knots)
  if knots.length = 0 then .error .indexError
  .ok ⟨degree, knots⟩

/-- bspline.py 48-57, `make_from_packed_knots`. -/
def Basis.fromPacked (degree : Nat) (packed : List (K × Nat)) : Except Err (Basis K) :=
  Basis.init degree (packed.flatMap fun qm => List.replicate qm.2 qm.1)

/-- bspline.py 107-112, the loop of `pack_knots`; `last`, `mult` are its local variables. -/
def packLoop : List K → K → Nat → List (K × Nat)
  | [], last, mult => [(last, mult)]
  | q :: qs, last, mult => if q = last then packLoop qs last (mult + 1) else (last, mult) :: packLoop qs q 1

/-- bspline.py 100-113, `pack_knots`. -/
def Basis.packKnots (B : Basis K) : List (K × Nat) :=
  packLoop B.knots (B.k 0) 0

/-- bspline.py 29-45, `make_equidistant`: value of knot `i` after the loop and the slice assignment. -/
def equiKnot (degree n : Nat) (a b : K) (i : Nat) : K :=
  let len := n + 2 * degree + 1
  if len - (degree + 1) ≤ i then b
  else if degree + 1 ≤ i ∧ i < len - degree then ((i : K) - (degree : K)) * ((b - a) / (n : K)) + a
  else a

/-- bspline.py 29-45, `make_equidistant` called with an integer `knot_range`: `np.array((knot_range[0],) * n)` is then an
integer array, and the assignment in line 43 truncates the float towards zero. Value of knot `i`. -/
def equiKnotInt (degree n : Nat) (a b : Int) (i : Nat) : Int :=
  let len := n + 2 * degree + 1
  if len - (degree + 1) ≤ i then b
  else if degree + 1 ≤ i ∧ i < len - degree then (((i : Int) - (degree : Int)) * (b - a) + a * (n : Int)).tdiv (n : Int)
  else a

/-- bspline.py 29-45, `make_equidistant` for a float `knot_range`. -/
def Basis.equidistant (degree n : Nat) (a b : K) : Except Err (Basis K) :=
  Basis.init degree ((List.range (n + 2 * degree + 1)).map (equiKnot degree n a b))

/-- bspline.py 96-98, `in_domain`. -/
def Basis.inDomain (B : Basis K) (t : K) : Bool := decide (B.lo ≤ t) && decide (t ≤ B.hi)

/-- bspline.py 116-134, `check`; `rtol` is the parameter, `c4` the constant `1e-4`. -/
def Basis.check (B : Basis K) (c4 rtol t : K) : Except Err K :=
  if B.lo ≤ t ∧ t ≤ B.hi then .ok t
  else
    let tol := (|t| + c4) * rtol
    if ¬ (B.lo - tol ≤ t ∧ t ≤ B.hi + tol) then .error .indexError
    else if t < B.lo then .ok B.lo
    else .ok B.hi

/-- `np.searchsorted(a, [t], side='right')[0]` for a sorted `a`: the number of leading elements `<= t`. -/
def searchRight (a : List K) (t : K) : Nat := (a.takeWhile (fun x => decide (x ≤ t))).length

/-- bspline.py 136-148, `find_knot_interval`. The slice is `knots[degree : -degree-1]`. -/
def Basis.findInterval (B : Basis K) (t : K) : Except Err Nat :=
  let c := searchRight ((B.knots.take (B.knots.length - B.degree - 1)).drop B.degree) t
  if c = 0 ∨ B.nIntervals < c - 1 then .error .assertionError
  else .ok (min (c - 1) (B.nIntervals - 1))

/-- bspline.py 150-156, `knot_interval_bounds`. -/
def Basis.intervalBounds (B : Basis K) (i : Nat) : K × K := (B.k (i + B.degree), B.k (i + B.degree + 1))

/-- bspline.py 159-191, `_basis` with the knots as a function. -/
def basisFn (k : Nat → K) : Nat → Nat → K → K
  | 0, idx, t => if k idx ≤ t ∧ t < k (idx + 1) then 1 else 0
  | deg + 1, idx, t =>
    let bottom := k (idx + (deg + 1)) - k idx
    let value := if bottom ≠ 0 then (t - k idx) / bottom * basisFn k deg idx t else 0
    let bottom' := k (idx + (deg + 1) + 1) - k (idx + 1)
    if bottom' ≠ 0 then value + (k (idx + (deg + 1) + 1) - t) / bottom' * basisFn k deg (idx + 1) t else value

/-- bspline.py 159-191, `_basis`. -/
def Basis.basis (B : Basis K) (deg idx : Nat) (t : K) : K := basisFn B.k deg idx t

/-- bspline.py 193-199, `fn_supp`. -/
def Basis.fnSupp (B : Basis K) (i : Nat) : K × K := (B.k i, B.k (i + B.degree + 1))

/-- bspline.py 202-211, `eval`. Simplification: `i_base` is a natural number. -/
def Basis.eval (B : Basis K) (i : Nat) (t : K) : Except Err K :=
  if i < B.size then
    if i = B.size - 1 ∧ t = B.hi then .ok 1
    else .ok (B.basis B.degree i t)
  else .error .assertionError

/-- Numpy division; `none` stands for the inf/nan result of a zero divisor. -/
def npDiv (a b : K) : Option K := if b = 0 then none else some (a / b)

/-- bspline.py 213-231, `eval_diff`, for `degree >= 1`. Simplification: for degree 0 `_basis(-1, ..)` recurses without
end (RecursionError); that case is not modelled. `ok none` is a nan/inf result. -/
def Basis.evalDiff (B : Basis K) (i : Nat) (t : K) : Except Err (Option K) :=
  if i < B.size then
    let deg := B.degree
    if i + 2 = B.size ∧ t = B.hi then .ok ((npDiv (deg : K) (B.k (i + deg + 1) - B.k (i + 1))).map fun x => -x)
    else if i + 1 = B.size ∧ t = B.hi then .ok (npDiv (deg : K) (B.k (i + deg) - B.k i))
    else
      let d1 : Option K :=
        if 0 < i then npDiv ((deg : K) * B.basis (deg - 1) i t) (B.k (i + deg) - B.k i) else some 0
      let d2 : Option K :=
        if i < B.size - 1 then npDiv ((deg : K) * B.basis (deg - 1) (i + 1) t) (B.k (i + deg + 1) - B.k (i + 1))
        else some 0
      .ok (d1.bind fun x => d2.map fun y => x - y)
  else .error .assertionError

/-- bspline.py 239-241, the loop of `make_linear_poles`: the pole with index `i`. -/
def Basis.linearPole (B : Basis K) : Nat → K
  | 0 => 0
  | i + 1 => B.linearPole i + (B.k (i + B.degree + 1) - B.k (i + 1)) / (B.degree : K)

/-- bspline.py 233-242, `make_linear_poles` for `degree >= 1` (degree 0 is a division by zero). -/
def Basis.linearPoles (B : Basis K) : List K := (List.range B.size).map B.linearPole

/-- bspline.py 245-255, `eval_vector`. -/
def Basis.evalVector (B : Basis K) (i : Nat) (t : K) : Except Err (List K) :=
  (List.range (B.degree + 1)).mapM fun j => B.eval (i + j) t

/-- bspline.py 258-268, `eval_diff_vector`. -/
def Basis.evalDiffVector (B : Basis K) (i : Nat) (t : K) : Except Err (List (Option K)) :=
  (List.range (B.degree + 1)).mapM fun j => B.evalDiff (i + j) t

/-- bspline.py 278-307, `_eval_vector_deg_2`; zero divisors are not modelled here (field division), the theorems assume
a non-empty interval. -/
def Basis.evalVector2 (B : Basis K) (i : Nat) (t : K) : List K :=
  let tk1 := B.k (i + 1)
  let tk2 := B.k (i + 2)
  let tk3 := B.k (i + 3)
  let tk4 := B.k (i + 4)
  let d31 := tk3 - tk1
  let d32 := tk3 - tk2
  let d42 := tk4 - tk2
  let dt1 := t - tk1
  let dt2 := t - tk2
  let d3t := tk3 - t
  let d4t := tk4 - t
  let d31_d32 := d31 * d32
  let d42_d32 := d42 * d32
  [(d3t * d3t) / d31_d32, ((dt1 * d3t) / d31_d32) + ((dt2 * d4t) / d42_d32), (dt2 * dt2) / d42_d32]

/-- bspline.py 310-339, `_eval_diff_vector_deg_2`; as `evalVector2`. -/
def Basis.evalDiffVector2 (B : Basis K) (i : Nat) (t : K) : List K :=
  let tk1 := B.k (i + 1)
  let tk2 := B.k (i + 2)
  let tk3 := B.k (i + 3)
  let tk4 := B.k (i + 4)
  let d31 := tk3 - tk1
  let d32 := tk3 - tk2
  let d42 := tk4 - tk2
  let dt1 := t - tk1
  let dt2 := t - tk2
  let d3t := tk3 - t
  let d4t := tk4 - t
  let d31_d32 := d31 * d32
  let d42_d32 := d42 * d32
  [-2 * d3t / d31_d32, (d3t - dt1) / d31_d32 + (d4t - dt2) / d42_d32, 2 * dt2 / d42_d32]

/-! ### Curves -/

/-- bspline.py 360-389, `Curve`: basis and poles (`N x (D + rational)`). -/
structure Curve (K : Type) where
  basis : Basis K
  poles : List (List K)
  rational : Bool
  deriving DecidableEq

/-- bspline.py 376, `self.dim`. -/
def Curve.dim (C : Curve K) : Nat := (C.poles.headD []).length - (if C.rational then 1 else 0)

/-- bspline.py 360-389, `Curve.__init__`: the shape assertions. All rows must have the same length (numpy array). -/
def Curve.init (B : Basis K) (poles : List (List K)) (rational : Bool) : Except Err (Curve K) :=
  if poles.length ≠ B.size then .error .assertionError
  else if poles = [] then .error .indexError
  else if ∃ r ∈ poles, r.length ≠ (poles.headD []).length then .error .valueError
  else .ok ⟨B, poles, rational⟩

/-- component `d` of pole `i` -/
def Curve.pole (C : Curve K) (i d : Nat) : K := (C.poles.getD i []).getD d 0

/-- inner product of two lists (`np.inner` of two vectors) -/
def inner : List K → List K → K
  | a :: as, b :: bs => a * b + inner as bs
  | _, _ => 0

/-- bspline.py 392-407, `Curve.eval_local`. In the rational case `_poles` are poles times weight (lines 382-385). -/
def Curve.evalLocal (C : Curve K) (t : K) (it : Nat) : Except Err (List (Option K)) := do
  let b ← C.basis.evalVector it t
  let idx := (List.range (C.basis.degree + 1)).map (it + ·)
  if C.rational then
    let w := fun i => C.pole i C.dim
    .ok ((List.range C.dim).map fun d =>
      npDiv (inner b (idx.map fun i => C.pole i d * w i)) (inner b (idx.map w)))
  else
    .ok ((List.range C.dim).map fun d => some (inner b (idx.map fun i => C.pole i d)))

/-- bspline.py 410-420, `Curve.eval`. -/
def Curve.eval (C : Curve K) (c4 rtol t : K) : Except Err (List (Option K)) := do
  let t ← C.basis.check c4 rtol t
  let it ← C.basis.findInterval t
  C.evalLocal t it

/-- `np.amin` of a column -/
def colMin (rows : List (List K)) (d : Nat) : K :=
  match rows with
  | [] => 0
  | r :: rs => rs.foldl (fun m r => min m (r.getD d 0)) (r.getD d 0)

/-- `np.amax` of a column -/
def colMax (rows : List (List K)) (d : Nat) : K :=
  match rows with
  | [] => 0
  | r :: rs => rs.foldl (fun m r => max m (r.getD d 0)) (r.getD d 0)

/-- bspline.py 432-437, `Curve.aabb`: minimum and maximum of every pole column (weights included). -/
def Curve.aabb (C : Curve K) : List K × List K :=
  let w := (C.poles.headD []).length
  ((List.range w).map (colMin C.poles), (List.range w).map (colMax C.poles))

/-- bspline.py 439-451, `Curve.bounding_boxes`: box number `it`, the box of `poles[it:it+3]` (`bih.AABB` of a point list
is taken to be its componentwise bounding box). -/
def Curve.box (C : Curve K) (it : Nat) : List K × List K :=
  let rows := (C.poles.drop it).take 3
  let w := (rows.headD []).length
  ((List.range w).map (colMin rows), (List.range w).map (colMax rows))

/-- bspline.py 439-451, `Curve.bounding_boxes`. -/
def Curve.boxes (C : Curve K) : List (List K × List K) := (List.range C.basis.nIntervals).map C.box

/-! ### Surfaces -/

/-- bspline.py 487-517, `Surface`: two bases and the pole matrix `Nu x Nv x (D + rational)`. -/
structure Surface (K : Type) where
  ub : Basis K
  vb : Basis K
  poles : List (List (List K))
  rational : Bool
  deriving DecidableEq

/-- bspline.py 501, `len(self.poles[0,0,:]) - rational`. -/
def Surface.dim (S : Surface K) : Nat :=
  ((S.poles.headD []).headD []).length - (if S.rational then 1 else 0)

/-- bspline.py 487-517, `Surface.__init__`: the shape assertion. -/
def Surface.init (ub vb : Basis K) (poles : List (List (List K))) (rational : Bool) : Except Err (Surface K) :=
  if poles.headD [] = [] then .error .indexError
  else if ∃ row ∈ poles, row.length ≠ (poles.headD []).length ∨
      ∃ p ∈ row, p.length ≠ ((poles.headD []).headD []).length then .error .valueError
  else if poles.length ≠ ub.size ∨ (poles.headD []).length ≠ vb.size then .error .assertionError
  else .ok ⟨ub, vb, poles, rational⟩

/-- component `d` of pole `i, j` -/
def Surface.pole (S : Surface K) (i j d : Nat) : K := ((S.poles.getD i []).getD j []).getD d 0

/-- the double `np.inner` of lines 540-551: first over `u`, then over `v` -/
def inner2 (bu bv : List K) (f : Nat → Nat → K) (iu iv : Nat) : K :=
  inner ((List.range bv.length).map fun j => inner bu ((List.range bu.length).map fun i => f (iu + i) (iv + j))) bv

/-- bspline.py 528-551, `Surface.eval_local`. -/
def Surface.evalLocal (S : Surface K) (u v : K) (iu iv : Nat) : Except Err (List (Option K)) := do
  let bu ← S.ub.evalVector iu u
  let bv ← S.vb.evalVector iv v
  if S.rational then
    let w := fun i j => S.pole i j S.dim
    .ok ((List.range S.dim).map fun d =>
      npDiv (inner2 bu bv (fun i j => S.pole i j d * w i j) iu iv) (inner2 bu bv w iu iv))
  else
    .ok ((List.range S.dim).map fun d => some (inner2 bu bv (fun i j => S.pole i j d) iu iv))

/-- bspline.py 553-565, `Surface.eval`. -/
def Surface.eval (S : Surface K) (c4 rtol u v : K) : Except Err (List (Option K)) := do
  let u ← S.ub.check c4 rtol u
  let v ← S.vb.check c4 rtol v
  let iu ← S.ub.findInterval u
  let iv ← S.vb.findInterval v
  S.evalLocal u v iu iv

/-- bspline.py 567-571, `Surface.deep_copy`: the `rational` argument is not passed on. -/
def Surface.deepCopy (S : Surface K) : Except Err (Surface K) := Surface.init S.ub S.vb S.poles false

/-- bspline.py 582-588, `Surface.aabb`. -/
def Surface.aabb (S : Surface K) : List K × List K :=
  let rows := S.poles.flatten
  let w := (rows.headD []).length
  ((List.range w).map (colMin rows), (List.range w).map (colMax rows))

/-- bspline.py 602-610, the nine poles of patch `iu, iv`. An index out of range raises IndexError. -/
def Surface.patchPoles (S : Surface K) (iu iv : Nat) : Except Err (List (List K)) :=
  [(0, 0), (0, 1), (0, 2), (1, 0), (1, 1), (1, 2), (2, 0), (2, 1), (2, 2)].mapM fun (ij : Nat × Nat) =>
    match (S.poles.getD (iu + ij.1) [])[iv + ij.2]? with
    | some p => if p.length = 3 then .ok p else .error .valueError
    | none => .error .indexError

/-- bspline.py 612, the box of patch `iu, iv`. -/
def Surface.box (S : Surface K) (iu iv : Nat) : Except Err (List K × List K) := do
  let rows ← S.patchPoles iu iv
  .ok ((List.range 3).map (colMin rows), (List.range 3).map (colMax rows))

/-- bspline.py 631-633, `patch_pos2id`. -/
def Surface.pos2id (S : Surface K) (iu iv : Nat) : Nat := iu * S.vb.nIntervals + iv

/-- bspline.py 635-639, `patch_id2pos`. Simplification: the float quotient is exact before `floor` (ids below 2^53). -/
def Surface.id2pos (S : Surface K) (id : Nat) : Nat × Nat :=
  let iu := id / S.vb.nIntervals
  (iu, id - iu * S.vb.nIntervals)

/-- bspline.py 591-617, `Surface.bounding_boxes`: the boxes in the order of the double loop, with the assert on the
patch number. -/
def Surface.boxes (S : Surface K) : Except Err (List (List K × List K)) :=
  (List.range (S.ub.nIntervals * S.vb.nIntervals)).mapM fun p =>
    -- the loop variables of turn `p` of the double loop
    let iu := p / S.vb.nIntervals
    let iv := p % S.vb.nIntervals
    if p = S.pos2id iu iv then S.box iu iv else .error .assertionError

end Verif.Spline
