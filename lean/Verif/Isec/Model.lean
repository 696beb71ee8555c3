import Verif.Spline.Model
import Mathlib.Data.Fin.VecNotation
/-!
# Model of the intersection code (src/bgem/bspline/isec_curve_surf.py, isec_surf_surf.py, surface_point.py, curve_point.py)

Numbers are elements of an ordered field `K`; a vector of three numbers is a function from `Fin 3`. The library calls
are parameters: `solve` is `numpy.linalg.solve` and `find` is the box query of the BIH tree, both arbitrary functions.
`la.norm(x) <= tol` is decided through squares, so no square root is needed.
-/
namespace Verif.Isec
open Verif.Spline

set_option linter.unusedSectionVars false
variable {K : Type} [Field K] [LinearOrder K] [IsStrictOrderedRing K]

/-- Python exceptions. `nan` is not an exception: it marks the runs in which the Jacobian holds a nan or inf from a zero
division (`eval_diff` at a knot of multiplicity above the degree); the code would go on with nan values. -/
inductive Err where
  | assertionError | indexError | valueError | linAlgError | unboundLocalError | attributeError | typeError | nan
  deriving DecidableEq, Repr

/-- exceptions of the spline functions -/
def liftE {α : Type} : Except Verif.Spline.Err α → Except Err α
  | .ok a => .ok a
  | .error .assertionError => .error .assertionError
  | .error .indexError => .error .indexError
  | .error .valueError => .error .valueError

/-- three numbers: `u, v, t` or `x, y, z` -/
abbrev V3 (K : Type) := Fin 3 → K

/-- `solve(J, d)`: the library function -/
abbrev Solver (K : Type) := (Fin 3 → Fin 3 → K) → V3 K → Except Err (V3 K)

/-- the square of `la.norm(d)` -/
def sq (d : V3 K) : K := d 0 * d 0 + d 1 * d 1 + d 2 * d 2

/-- `la.norm(d) <= tol` -/
def normLe (d : V3 K) (tol : K) : Bool := decide (0 ≤ tol ∧ sq d ≤ tol * tol)

/-- `la.norm(d) < tol` -/
def normLt (d : V3 K) (tol : K) : Bool := decide (0 < tol ∧ sq d < tol * tol)

/-- the numbers of a list with no nan in it -/
def noNan (l : List (Option K)) : Except Err (List K) :=
  match l.mapM id with
  | some r => .ok r
  | none => .error .nan

/-- the vector of three numbers given by their formula -/
def vec (f : Nat → K) : V3 K := fun i => f i

/-- isec_curve_surf.py 17-47, `_compute_jacobian_and_coordinates`: Jacobian (rows are x, y, z; columns u, v, t), point of
the surface, point of the curve. Simplification: degrees other than 2 and poles that do not have three numbers are a
ValueError here; the code fails on them in a matrix product or in `solve`. -/
def jacobianAndCoordinates (S : Surface K) (C : Curve K) (uvt : V3 K) (iu iv it : Nat) :
    Except Err ((Fin 3 → Fin 3 → K) × V3 K × V3 K) := do
  let uf ← liftE (S.ub.evalVector iu (uvt 0))
  let vf ← liftE (S.vb.evalVector iv (uvt 1))
  let ufd ← liftE (S.ub.evalDiffVector iu (uvt 0))
  let vfd ← liftE (S.vb.evalDiffVector iv (uvt 1))
  let tf ← liftE (C.basis.evalVector it (uvt 2))
  let tfd ← liftE (C.basis.evalDiffVector it (uvt 2))
  if S.ub.degree ≠ 2 ∨ S.vb.degree ≠ 2 ∨ C.basis.degree ≠ 2 ∨ ((S.poles.headD []).headD []).length ≠ 3 ∨
      (C.poles.headD []).length ≠ 3 then .error .valueError
  else do
    let ufd ← noNan ufd
    let vfd ← noNan vfd
    let tfd ← noNan tfd
    let cp := fun d => (List.range 3).map fun k => C.pole (it + k) d
    let dt := fun d => inner tfd (cp d)
    let du := fun d => inner2 ufd vf (fun i j => S.pole i j d) iu iv
    let dv := fun d => inner2 uf vfd (fun i j => S.pole i j d) iu iv
    let x1 := fun d => inner2 uf vf (fun i j => S.pole i j d) iu iv
    let x2 := fun d => inner tf (cp d)
    .ok (fun d => ![du d, dv d, -dt d], vec x1, vec x2)

/-- isec_curve_surf.py 88-89: `np.minimum(np.maximum(uvt, min_bounds), max_bounds)` -/
def clip (lo hi x : V3 K) : V3 K := fun i => min (max (x i) (lo i)) (hi i)

/-- isec_curve_surf.py 79-89, the Newton loop. `n` turns are left; `last` holds the local variables `xyz1, xyz2, conv`,
`none` before the first turn. -/
def newtonLoop (solve : Solver K) (F : V3 K → Except Err ((Fin 3 → Fin 3 → K) × V3 K × V3 K)) (lo hi : V3 K) (tol : K) :
    Nat → V3 K → Option (V3 K × V3 K × Bool) → Except Err (V3 K × Option (V3 K × V3 K × Bool))
  | 0, uvt, last => .ok (uvt, last)
  | n + 1, uvt, _ => do
    let (J, x1, x2) ← F uvt
    let d : V3 K := fun i => x1 i - x2 i
    let conv := normLe d tol
    if normLt d tol then .ok (uvt, some (x1, x2, conv))
    else do
      let s ← solve J d
      newtonLoop solve F lo hi tol n (clip lo hi fun i => uvt i - s i) (some (x1, x2, conv))

/-- what `get_intersection` returns -/
structure Found (K : Type) where
  uvt : V3 K
  conv : Bool
  xyz : V3 K

/-- `knots[i]` of an array, with the IndexError -/
def knot (B : Basis K) (i : Nat) : Except Err K :=
  match B.knots[i]? with
  | some x => .ok x
  | none => .error .indexError

/-- isec_curve_surf.py 49-93, `get_intersection`. The argument `rel_tol` is not used by the code. A loop of no turns leaves
`xyz1` unset (UnboundLocalError). -/
def getIntersection (solve : Solver K) (S : Surface K) (C : Curve K) (iu iv it maxIt : Nat) (tol : K) :
    Except Err (Found K) := do
  let u0 ← knot S.ub (iu + 2)
  let v0 ← knot S.vb (iv + 2)
  let t0 ← knot C.basis (it + 2)
  let u1 ← knot S.ub (iu + 3)
  let v1 ← knot S.vb (iv + 3)
  let t1 ← knot C.basis (it + 3)
  let lo : V3 K := ![u0, v0, t0]
  let hi : V3 K := ![u1, v1, t1]
  let uvt : V3 K := fun i => (lo i + hi i) / 2
  let (uvt, last) ← newtonLoop solve (fun x => jacobianAndCoordinates S C x iu iv it) lo hi tol maxIt uvt none
  match last with
  | none => .error .unboundLocalError
  | some (x1, x2, conv) => .ok ⟨uvt, conv, fun i => (x1 i + x2 i) / 2⟩

/-! ### Points on surfaces -/

/-- surface_point.py 3-29, the attributes of `SurfacePoint` (`surf` left out). -/
structure SurfPoint (K : Type) where
  iuv : List (Int × Int)
  uv : K × K
  /-- `interface_flag` -/
  iface : Int × Int
  /-- `boundary_flag` -/
  bnd : Bool × Bool
  /-- `surface_boundary_flag` -/
  surfBnd : Bool

/-- surface_point.py 72-75, `ti[k, 0:2] = knots[i + 2:i + 4]`: a slice of one number is repeated by numpy, an empty one
does not fit. -/
def ti (B : Basis K) (i : Nat) : Except Err (K × K) :=
  match (B.knots.drop (i + 2)).take 2 with
  | [a, b] => .ok (a, b)
  | [a] => .ok (a, a)
  | _ => .error .valueError

/-- surface_point.py 78-81, the interface flag of one coordinate -/
def ifaceFlag (t : K × K) (x : K) : Int := if |t.1 - x| = 0 then -1 else if |t.2 - x| = 0 then 1 else 0

/-- surface_point.py 83-85, the boundary flag of one coordinate -/
def bndFlag (x : K) : Bool := decide (x = 0 ∨ x = 1)

/-- surface_point.py 31-57, `extend_patches`: the list `iuv` afterwards -/
def extendPatches (iuv : Int × Int) (iface : Int × Int) (bnd : Bool × Bool) : List (Int × Int) :=
  let a := bnd.1 = false ∧ iface.1 ≠ 0
  let b := bnd.2 = false ∧ iface.2 ≠ 0
  [iuv] ++ (if a then [(iuv.1 + iface.1, iuv.2)] else []) ++ (if b then [(iuv.1, iuv.2 + iface.2)] else []) ++
    (if a ∧ b then [(iuv.1 + iface.1, iuv.2 + iface.2)] else [])

/-- surface_point.py 8-29, `SurfacePoint.__init__`. -/
def SurfPoint.init (S : Surface K) (iu iv : Nat) (uv : K × K) : Except Err (SurfPoint K) := do
  let tu ← ti S.ub iu
  let tv ← ti S.vb iv
  let iface := (ifaceFlag tu uv.1, ifaceFlag tv uv.2)
  let bnd := (bndFlag uv.1, bndFlag uv.2)
  .ok { iuv := extendPatches (iu, iv) iface bnd, uv := uv, iface := iface, bnd := bnd, surfBnd := bnd.1 || bnd.2 }

/-- surface_point.py 108-117, `patch_id`: the set as a list. -/
def SurfPoint.patchId (S : Surface K) (p : SurfPoint K) : List Int :=
  p.iuv.map fun a => a.1 * S.vb.nIntervals + a.2

/-- curve_point.py 9-25, `CurvePoint.__init__`: the method `_curve_boundary_intersection` that it calls does not exist
(the class has `curve_boundary_intersection`), so the constructor raises AttributeError. -/
def curvePointInit (_C : Curve K) (_it : Nat) (_t : K) : Except Err Unit := .error .attributeError

/-- isec_curve_surf.py 96-135, `IsecCurveSurf.get_intersections`: `self.max_it` is not set by `__init__` (13-15), so the
first patch that the tree returns raises AttributeError. `crossing` stays zero, nothing is skipped. The result is the
list of points, which can only be empty. -/
def curveSurfIntersections (find : List K × List K → List Nat) (C : Curve K) : Except Err (List Unit) :=
  C.boxes.foldlM (fun (acc : List Unit) box => match find box with
    | [] => .ok acc
    | _ :: _ => .error .attributeError) []

/-! ### Surface and surface -/

/-- isec_point.py 4-9, `Axis`: `true` is u (0), `false` is v (1). -/
abbrev Axis := Bool

/-- isec_surf_surf.py 62-66, the fixed basis -/
def fixBasis (S : Surface K) (ax : Axis) : Basis K := if ax then S.ub else S.vb

/-- isec_surf_surf.py 62-67, the basis of the curves -/
def curvBasis (S : Surface K) (ax : Axis) : Basis K := if ax then S.vb else S.ub

/-- isec_surf_surf.py 73-75, `patch[iw]` of the list `[0, 0, 1, 2, ...]` -/
def mainPatch (iw : Nat) : Nat := iw - 1

/-- isec_surf_surf.py 77-87, one turn: the curve with number `iw`. Simplification: a fixed basis of degree other than 2 is
a ValueError here (in the code the shapes of `tensordot` do not fit, except for very small bases). -/
def mainCurve (S : Surface K) (ax : Axis) (iw : Nat) : Except Err (Curve K) := do
  let B := fixBasis S ax
  let w ← liftE (B.evalVector (mainPatch iw) (B.k (iw + 2)))
  if B.degree ≠ 2 then .error .valueError
  else do
    let pole := fun (i j d : Nat) => if ax then S.pole i j d else S.pole j i d
    let width := ((S.poles.headD []).headD []).length
    let poles := (List.range (curvBasis S ax).size).map fun j => (List.range width).map fun d =>
      inner w ((List.range 3).map fun i => pole (mainPatch iw + i) j d)
    liftE (Curve.init (curvBasis S ax) poles false)

/-- isec_surf_surf.py 51-89, `_main_curves`: curve, value of the fixed coordinate, neighbour patch. -/
def mainCurves (S : Surface K) (ax : Axis) : Except Err (List (Curve K × K × Nat)) :=
  (List.range ((fixBasis S ax).nIntervals + 1)).mapM fun iw => do
    let c ← mainCurve S ax iw
    .ok (c, (fixBasis S ax).k (iw + 2), mainPatch iw)

/-- isec_point.py 11-35, `IsecPoint`; only `surface_point`, `xyz` and `connected` are used. -/
structure IsecPoint (K : Type) where
  a : SurfPoint K
  b : SurfPoint K
  xyz : V3 K
  connected : Bool

/-- the index pair with `i` on the axis and `j` on the other place -/
def onAxis {α : Type} (ax : Axis) (i j : α) : α × α := if ax then (i, j) else (j, i)

/-- the component of a pair on the axis `1 - axis` -/
def offAxis {α : Type} (ax : Axis) (p : α × α) : α := if ax then p.2 else p.1

/-- isec_surf_surf.py 118-153, the turn for one patch of the second surface. The state is the point list and the list of
the entries of `crossing` that are set. -/
def patchTurn (solve : Solver K) (S1 S2 : Surface K) (maxIt : Nat) (tol : K) (ax : Axis) (cid : Nat) (c : Curve K) (w : K)
    (patch it : Nat) (st : List (IsecPoint K) × List (Nat × Nat)) (ipatch : Nat) :
    Except Err (List (IsecPoint K) × List (Nat × Nat)) := do
  let pos := S2.id2pos ipatch
  let f ← getIntersection solve S2 c pos.1 pos.2 it maxIt tol
  if f.conv then do
    let ia := onAxis ax patch it
    let a ← SurfPoint.init S1 ia.1 ia.2 (onAxis ax w (f.uvt 2))
    let b ← SurfPoint.init S2 pos.1 pos.2 (f.uvt 0, f.uvt 1)
    let dir := offAxis ax a.iface
    let cross := if dir ≠ 0 then onAxis ax cid (it + (if dir = 1 then 1 else 0)) :: st.2 else st.2
    .ok (st.1 ++ [⟨a, b, f.xyz, false⟩], cross)
  else .ok st

/-- isec_surf_surf.py 160-171, `_already_found` -/
def alreadyFound (cross : List (Nat × Nat)) (it cid : Nat) (ax : Axis) : Bool :=
  decide (onAxis ax cid it ∈ cross ∨ onAxis ax cid (it + 1) ∈ cross)

/-- isec_surf_surf.py 112-117, the turn for one knot interval of a main curve -/
def intervalTurn (solve : Solver K) (find : List K × List K → List Nat) (S1 S2 : Surface K) (maxIt : Nat) (tol : K)
    (ax : Axis) (cid : Nat) (c : Curve K) (w : K) (patch : Nat) (st : List (IsecPoint K) × List (Nat × Nat)) (it : Nat) :
    Except Err (List (IsecPoint K) × List (Nat × Nat)) :=
  if alreadyFound st.2 it cid ax then .ok st
  else (find (c.box it)).foldlM (patchTurn solve S1 S2 maxIt tol ax cid c w patch it) st

/-- isec_surf_surf.py 107-112, the loop over the main curves of one axis -/
def axisTurn (solve : Solver K) (find : List K × List K → List Nat) (S1 S2 : Surface K) (maxIt : Nat) (tol : K)
    (st : List (IsecPoint K) × List (Nat × Nat)) (ax : Axis) : Except Err (List (IsecPoint K) × List (Nat × Nat)) := do
  let curves ← mainCurves S1 ax
  curves.zipIdx.foldlM (fun st (x : (Curve K × K × Nat) × Nat) =>
    (List.range x.1.1.basis.nIntervals).foldlM
      (intervalTurn solve find S1 S2 maxIt tol ax x.2 x.1.1 x.1.2.1 x.1.2.2) st) st

/-- isec_surf_surf.py 91-157, `IsecSurfSurf.get_intersections`. `find` is `surf2.tree.find_box`; building the tree reads the
patch boxes first. -/
def getIntersections (solve : Solver K) (find : List K × List K → List Nat) (S1 S2 : Surface K) (maxIt : Nat) (tol : K) :
    Except Err (List (IsecPoint K)) := do
  let _ ← liftE S2.boxes
  let st ← [true, false].foldlM (axisTurn solve find S1 S2 maxIt tol) ([], [])
  .ok st.1

/-- `lst[i]` of a Python list with an integer index: negative indices count from the end -/
def pyIdx {α : Type} (l : List α) (i : Int) : Option Nat :=
  if 0 ≤ i then (if i < l.length then some i.toNat else none)
  else if -(l.length : Int) ≤ i then some (i + l.length).toNat else none

/-- isec_surf_surf.py 292-293, `for patch in patch_id: patch_points[patch].add(point_pos)`; a set is a list of positions. -/
def addToPatches (pos : Nat) (pp : List (List Nat)) : List Int → Except Err (List (List Nat))
  | [] => .ok pp
  | p :: ps =>
    match pyIdx pp p with
    | some i => addToPatches pos (pp.modify i fun s => if pos ∈ s then s else s ++ [pos]) ps
    | none => .error .indexError

/-- isec_surf_surf.py 288-295, the loop over the points. The argument holds for every point of the list its `patch_id()` on
the wanted surface and the boundary flag of `surface_point[0]`. -/
def patchPointLoop : List (List Int × Bool) → Nat → List (List Nat) → List Nat → Except Err (List (List Nat) × List Nat)
  | [], _, pp, bp => .ok (pp, bp)
  | x :: xs, pos, pp, bp => do
    let pp ← addToPatches pos pp x.1
    patchPointLoop xs (pos + 1) pp (if x.2 then bp ++ [pos] else bp)

/-- isec_surf_surf.py 271-297, `make_patch_point_list`. `S` is the surface of the points with index `second` (`surf_id`). -/
def makePatchPointList (S : Surface K) (pts : List (IsecPoint K)) (second : Bool) :
    Except Err (List (List Nat) × List Nat) :=
  if pts.isEmpty then .error .indexError
  else patchPointLoop (pts.map fun p => ((if second then p.b else p.a).patchId S, p.a.surfBnd)) 0
    (List.replicate (S.ub.nIntervals * S.vb.nIntervals) []) []

/-- isec_surf_surf.py 320-342, `_unconnected_patch_points` for the lists of one surface: `next_point.union(..)` in line 333
makes a new set that is dropped, so `next_point` stays empty; the read of `patch_point_list[..][p_id]` can fail. -/
def unconnectedPatchPoints (pp : List (List Nat)) (patchId : List Int) : Except Err (List Nat) := do
  patchId.forM fun p => match pyIdx pp p with
    | some _ => .ok ()
    | none => .error .indexError
  .ok []

/-- isec_surf_surf.py 369-377, the turn for one position: `found == 1` in line 375 is a comparison, so the test for double
entries never fires. -/
def insidePos (connected : List Bool) (acc : List Nat) (pos : Nat) : Except Err (List Nat) :=
  match connected[pos]? with
  | none => .error .indexError
  | some c => .ok (if c then acc else acc ++ [pos])

/-- isec_surf_surf.py 368-377, the turn for one patch -/
def insidePatch (connected : List Bool) (pp : List (List Nat)) (acc : List Nat) (p : Int) : Except Err (List Nat) :=
  match pyIdx pp p with
  | none => .error .indexError
  | some i => (pp.getD i []).foldlM (insidePos connected) acc

/-- isec_surf_surf.py 358-379, `_get_inside_points` for the lists of one surface: `connected` holds the flag of every point. -/
def getInsidePoints (connected : List Bool) (pp : List (List Nat)) (patchId : List Int) : Except Err (List Nat) :=
  patchId.foldlM (insidePatch connected pp) []

/-- isec_surf_surf.py 382-389, `_free_point` with its two parameters `(self, point_list)`; `static` call with one argument is
`freePointCall`. -/
def freePoint (connected : List Bool) : Int :=
  match connected.findIdx? (fun c => !c) with
  | some i => i
  | none => -1

/-- isec_surf_surf.py 426, the call `self._free_point(point_list[i_surf])` of a static method with two parameters: one argument is
missing, TypeError. -/
def freePointCall (_connected : List Bool) : Except Err Int := .error .typeError

/-- isec_surf_surf.py 188-239, `_connect_points` up to the first call that `_make_point_orderings` (411-426) makes. -/
def connectPoints (S1 S2 : Surface K) (p1 p2 : List (IsecPoint K)) : Except Err Unit := do
  let _ ← makePatchPointList S1 p1 false
  let _ ← makePatchPointList S2 p2 false
  let _ ← makePatchPointList S1 p2 true
  let _ ← makePatchPointList S2 p1 true
  let _ ← freePointCall (p1.map (·.connected))
  .ok ()

/-- isec_surf_surf.py 21-46, `IsecSurfSurf.get_intersection`. -/
def surfSurfIntersection (solve : Solver K) (find1 find2 : List K × List K → List Nat) (S1 S2 : Surface K) (maxIt : Nat)
    (tol : K) : Except Err (List (IsecPoint K) × List (IsecPoint K)) := do
  let p1 ← getIntersections solve find2 S1 S2 maxIt tol
  let p2 ← getIntersections solve find1 S2 S1 maxIt tol
  connectPoints S1 S2 p1 p2
  .ok (p1, p2)

end Verif.Isec
