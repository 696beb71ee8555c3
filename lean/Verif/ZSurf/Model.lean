import Verif.Spline.Model

/-!
Model of `Z_Surface` and of the evaluation part of `GridSurface` (src/bgem/bspline/bspline.py).

Numbers are elements of an ordered field.  Objects live in a list (the heap) and are named by their position, because
`Z_Surface` stores bound methods in its attributes and a shallow copy keeps the methods of the original object.
Rational `z_surface` objects are not modelled.
-/
namespace Verif.ZSurf

open Verif.Spline

set_option linter.unusedSectionVars false

variable {K : Type} [Field K] [LinearOrder K] [IsStrictOrderedRing K]

/-- Exceptions. `noObject` is no Python exception: the object name is not in use. -/
inductive Exc where
  | assertion
  | attribute
  | linAlg
  | spline (e : Spline.Err)
  | noObject
  | notModelled
  deriving DecidableEq

/-- Two component vector. -/
structure V2 (K : Type) where
  x : K
  y : K
  deriving DecidableEq

/-- 2 x 2 matrix, by rows. -/
structure M2 (K : Type) where
  a : K
  b : K
  c : K
  d : K
  deriving DecidableEq

def V2.add (p q : V2 K) : V2 K := ⟨p.x + q.x, p.y + q.y⟩
def V2.sub (p q : V2 K) : V2 K := ⟨p.x - q.x, p.y - q.y⟩
/-- `np.dot(m, v)` -/
def M2.mulV (m : M2 K) (v : V2 K) : V2 K := ⟨m.a * v.x + m.b * v.y, m.c * v.x + m.d * v.y⟩
/-- `np.dot(m, n)` -/
def M2.mul (m n : M2 K) : M2 K :=
  ⟨m.a * n.a + m.b * n.c, m.a * n.b + m.b * n.d, m.c * n.a + m.d * n.c, m.c * n.b + m.d * n.d⟩
def M2.det (m : M2 K) : K := m.a * m.d - m.b * m.c
/-- `la.inv`; `none` is `LinAlgError`. -/
def M2.inv (m : M2 K) : Option (M2 K) :=
  if m.det = 0 then none else some ⟨m.d / m.det, -m.b / m.det, -m.c / m.det, m.a / m.det⟩
/-- `np.column_stack((u, v))` -/
def M2.cols (u v : V2 K) : M2 K := ⟨u.x, v.x, u.y, v.y⟩

/-- Points of the quadrilateral, for the uv corners (0,1), (0,0), (1,0), (1,1) (bspline.py:651). -/
structure Quad (K : Type) where
  q0 : V2 K
  q1 : V2 K
  q2 : V2 K
  q3 : V2 K
  deriving DecidableEq

/-- Numerical constants: tolerances of `SplineBasis.check` and of `np.allclose`. -/
structure Consts (K : Type) where
  c4 : K
  rtol : K
  atol : K
  crtol : K

/-- `np.allclose(p, q)` on a point. -/
def allclose (cs : Consts K) (p q : V2 K) : Bool :=
  decide (|p.x - q.x| ≤ cs.atol + cs.crtol * |q.x|) && decide (|p.y - q.y| ≤ cs.atol + cs.crtol * |q.y|)

/-- Attributes set only in the linear case (bspline.py:734-738). -/
structure Lin (K : Type) where
  shift : V2 K
  mux : M2 K
  mxu : M2 K
  deriving DecidableEq

/-- A `Z_Surface` object. `bound` is the object whose methods `self.xy_to_uv` and `self.uv_to_xy` are (bspline.py:740-747);
`zMat` is `self.z_mat`, `zMatI` is `self._z_mat`. -/
structure Obj (K : Type) where
  zs : Surface K
  quad : Quad K
  orig : Quad K
  linear : Bool
  bound : Nat
  lin : Option (Lin K)
  xyMat : M2 K × V2 K
  zMat : K × K
  zMatI : K × K
  haveZ : Bool

def idMat : M2 K := ⟨1, 0, 0, 1⟩

/-- `_reset_transform_xy` on an object named `self`, with a given quad of four points (bspline.py:706-747); with three
points the caller adds the fourth, see `complete`. -/
def Obj.resetXY (cs : Consts K) (self : Nat) (o : Obj K) (q : Quad K) : Obj K × Option Exc :=
  let o := { o with xyMat := (idMat, ⟨0, 0⟩) }
  let v11 := (q.q0.add q.q2).sub q.q1
  if allclose cs q.q3 v11 then
    let vVec := q.q0.sub q.q1
    let uVec := q.q2.sub q.q1
    let m := M2.cols uVec vVec
    match m.inv with
    | none => ({ o with quad := q }, some .linAlg)
    | some mi => ({ o with quad := q, lin := some ⟨q.q1, m, mi⟩, linear := true, bound := self }, none)
  else ({ o with quad := q, linear := false, bound := self }, none)

/-- `_reset_transform_z` (bspline.py:698-702). -/
def Obj.resetZ (o : Obj K) : Obj K := { o with zMat := (1, 0), zMatI := (1, 0), haveZ := false }

/-- Three points are completed to a parallelogram (bspline.py:727-729). -/
def complete (q0 q1 q2 : V2 K) : Quad K := ⟨q0, q1, q2, (q0.add q2).sub q1⟩

/-- Value of the underlying 1D surface, from `Surface.eval_array` (bspline.py:573-580, evaluation point by point). -/
def zRaw (cs : Consts K) (S : Surface K) (u v : K) : Except Exc K :=
  match S.eval cs.c4 cs.rtol u v with
  | .error e => .error (.spline e)
  | .ok (some z :: _) => .ok z
  | .ok _ => .error .notModelled

/-- `Z_Surface.__init__` (bspline.py:645-672). -/
def Obj.new (cs : Consts K) (self : Nat) (q : Quad K) (S : Surface K) : Except Exc (Obj K) :=
  if S.rational then .error .notModelled
  else if S.dim ≠ 1 then .error .assertion
  else
    let o : Obj K := ⟨S, q, q, false, self, none, (idMat, ⟨0, 0⟩), (1, 0), (1, 0), false⟩
    match o.resetXY cs self q with
    | (_, some e) => .error e
    | (o, none) => .ok { o.resetZ with orig := o.quad }

/-- `_linear_uv_to_xy` (bspline.py:823-825) -/
def Lin.uvToXy (l : Lin K) (p : V2 K) : V2 K := (l.mux.mulV p).add l.shift

/-- `_linear_xy_to_uv` (bspline.py:843-846) -/
def Lin.xyToUv (l : Lin K) (p : V2 K) : V2 K := l.mxu.mulV (p.sub l.shift)

/-- `_bilinear_uv_to_xy` (bspline.py:828-834) -/
def Quad.bilinear (q : Quad K) (p : V2 K) : V2 K :=
  let w0 := (1 - p.x) * p.y
  let w1 := (1 - p.x) * (1 - p.y)
  let w2 := p.x * (1 - p.y)
  let w3 := p.x * p.y
  ⟨w0 * q.q0.x + w1 * q.q1.x + w2 * q.q2.x + w3 * q.q3.x, w0 * q.q0.y + w1 * q.q1.y + w2 * q.q2.y + w3 * q.q3.y⟩

/-- The XY part of `center()` right after `_reset_transform_xy` (bspline.py:761, 917-922): the methods are those of the
object itself. -/
def Obj.ownCenterXY (o : Obj K) : Except Exc (V2 K) :=
  if o.linear then
    match o.lin with
    | none => .error .attribute
    | some l => .ok (l.uvToXy ⟨1 / 2, 1 / 2⟩)
  else .ok (o.quad.bilinear ⟨1 / 2, 1 / 2⟩)

/-- `np.dot(q - c, A.T) + b + c` for one point of the quad (bspline.py:771). -/
def affine (A : M2 K) (b c q : V2 K) : V2 K := ((A.mulV (q.sub c)).add b).add c

/-- The XY part of `transform` (bspline.py:759-771). The `Z` value at the centre is computed too (in `center`), so an error
there stops the transform. -/
def Obj.transformXY (cs : Consts K) (self : Nat) (o : Obj K) (A : M2 K) (b : V2 K) : Obj K × Option Exc :=
  match o.resetXY cs self o.orig with
  | (o, some e) => (o, some e)
  | (o, none) =>
    match zRaw cs o.zs (1 / 2) (1 / 2), o.ownCenterXY with
    | .error e, _ => (o, some e)
    | _, .error e => (o, some e)
    | .ok _, .ok c =>
      let o := { o with xyMat := (A, b) }
      match o.lin with
      | none => (o, some .attribute)
      | some l =>
        let mux := A.mul l.mux
        let shift := (b.add (A.mulV (l.shift.sub c))).add c
        match mux.inv with
        | none => ({ o with lin := some { l with mux := mux, shift := shift } }, some .linAlg)
        | some mi =>
          ({ o with
              lin := some ⟨shift, mux, mi⟩
              quad := ⟨affine A b c o.quad.q0, affine A b c o.quad.q1, affine A b c o.quad.q2, affine A b c o.quad.q3⟩ },
            none)

/-- The Z part of `transform` (bspline.py:774-784). -/
def Obj.transformZ (cs : Consts K) (o : Obj K) (s h : K) : Obj K × Option Exc :=
  let o := o.resetZ
  match zRaw cs o.zs (1 / 2) (1 / 2) with
  | .error e => (o, some e)
  | .ok zc => ({ o with zMat := (s, h), zMatI := (s, h + (1 - s) * zc), haveZ := true }, none)

/-- `transform` (bspline.py:750-784). -/
def Obj.transform (cs : Consts K) (self : Nat) (o : Obj K) (xy : Option (M2 K × V2 K)) (z : Option (K × K)) :
    Obj K × Option Exc :=
  let r := match xy with
    | none => (o, none)
    | some (A, b) => o.transformXY cs self A b
  match r with
  | (o, some e) => (o, some e)
  | (o, none) =>
    match z with
    | none => (o, none)
    | some (s, h) => o.transformZ cs s h

/-- All poles of a surface changed by `p * s + h`. -/
def scalePoles (S : Surface K) (s h : K) : Surface K :=
  { S with poles := S.poles.map fun row => row.map fun p => p.map fun x => x * s + h }

/-- `apply_z_transform` (bspline.py:793-804). -/
def Obj.applyZ (o : Obj K) : Obj K × Option Exc :=
  if o.haveZ then
    match o.zs.deepCopy with
    | .error e => (o, some (.spline e))
    | .ok S => ({ o with zs := scalePoles S o.zMatI.1 o.zMatI.2, zMatI := (1, 0), haveZ := false }, none)
  else (o, none)

/-! ### The heap -/

/-- What a program does with its surfaces. -/
inductive Op (K : Type) where
  | new (q : Quad K) (S : Surface K)
  | transform (i : Nat) (xy : Option (M2 K × V2 K)) (z : Option (K × K))
  | applyZ (i : Nat)
  | copy (i : Nat)

abbrev World (K : Type) := List (Obj K)

/-- One operation; on an exception the (possibly changed) world is kept. `copy` is `get_copy` (bspline.py:807-813),
`copy.copy` of the attributes. -/
def step (cs : Consts K) (w : World K) : Op K → World K × Option Exc
  | .new q S =>
    match Obj.new cs w.length q S with
    | .error e => (w, some e)
    | .ok o => (w ++ [o], none)
  | .transform i xy z =>
    match w[i]? with
    | none => (w, some .noObject)
    | some o => let r := o.transform cs i xy z; (w.set i r.1, r.2)
  | .applyZ i =>
    match w[i]? with
    | none => (w, some .noObject)
    | some o => let r := o.applyZ; (w.set i r.1, r.2)
  | .copy i =>
    match w[i]? with
    | none => (w, some .noObject)
    | some o => (w ++ [o], none)

/-- A program that stops at the first exception. -/
def run (cs : Consts K) : World K → List (Op K) → World K × Option Exc
  | w, [] => (w, none)
  | w, op :: ops =>
    match step cs w op with
    | (w, some e) => (w, some e)
    | (w, none) => run cs w ops

/-- `obj.uv_to_xy` on one point (bspline.py:823-834). -/
def uvToXy (w : World K) (i : Nat) (p : V2 K) : Except Exc (V2 K) :=
  match w[i]? with
  | none => .error .noObject
  | some o =>
    match w[o.bound]? with
    | none => .error .noObject
    | some t =>
      if o.linear then
        match t.lin with
        | none => .error .attribute
        | some l => .ok (l.uvToXy p)
      else .ok (t.quad.bilinear p)

/-- `obj.xy_to_uv` on one point (bspline.py:843-851); the bilinear case is not implemented in the code. -/
def xyToUv (w : World K) (i : Nat) (p : V2 K) : Except Exc (V2 K) :=
  match w[i]? with
  | none => .error .noObject
  | some o =>
    match w[o.bound]? with
    | none => .error .noObject
    | some t =>
      if o.linear then
        match t.lin with
        | none => .error .attribute
        | some l => .ok (l.xyToUv p)
      else .error .assertion

/-- `z_eval_array` on one point (bspline.py:893-904), the Z component of `eval_array` (867-880). -/
def Obj.zEval (cs : Consts K) (o : Obj K) (u v : K) : Except Exc K :=
  match zRaw cs o.zs u v with
  | .error e => .error e
  | .ok z => .ok (if o.haveZ then z * o.zMatI.1 + o.zMatI.2 else z)

/-- `eval_array` on one point (bspline.py:867-880). -/
def evalPoint (cs : Consts K) (w : World K) (i : Nat) (u v : K) : Except Exc (K × K × K) :=
  match w[i]? with
  | none => .error .noObject
  | some o =>
    match o.zEval cs u v with
    | .error e => .error e
    | .ok z =>
      match uvToXy w i ⟨u, v⟩ with
      | .error e => .error e
      | .ok p => .ok (p.x, p.y, z)

/-- `eval_xy_array` on one point (bspline.py:883-890). -/
def evalXY (cs : Consts K) (w : World K) (i : Nat) (x y : K) : Except Exc (K × K × K) :=
  match xyToUv w i ⟨x, y⟩ with
  | .error e => .error e
  | .ok p => evalPoint cs w i p.x p.y

/-- `aabb` (bspline.py:925-930): lower and upper corner. `zBox` is the first column of `z_surface.aabb()`. -/
def Obj.aabb (o : Obj K) : (K × K × K) × (K × K × K) :=
  let q := o.quad
  let zBox := (colMin o.zs.poles.flatten 0, colMax o.zs.poles.flatten 0)
  ((min (min (min q.q0.x q.q1.x) q.q2.x) q.q3.x, min (min (min q.q0.y q.q1.y) q.q2.y) q.q3.y,
      o.zMatI.1 * zBox.1 + o.zMatI.2),
   (max (max (max q.q0.x q.q1.x) q.q2.x) q.q3.x, max (max (max q.q0.y q.q1.y) q.q2.y) q.q3.y,
      o.zMatI.1 * zBox.2 + o.zMatI.2))

/-- `make_full_surface` (bspline.py:677-696): XY poles are the images of the linear poles, Z poles are transformed. -/
def fullSurface (w : World K) (i : Nat) : Except Exc (Surface K) :=
  match w[i]? with
  | none => .error .noObject
  | some o =>
    let pole := fun iu iv =>
      match uvToXy w i ⟨o.zs.ub.linearPole iu, o.zs.vb.linearPole iv⟩ with
      | .error e => Except.error e
      | .ok p =>
        let z := o.zs.pole iu iv 0
        .ok [p.x, p.y, if o.haveZ then z * o.zMatI.1 + o.zMatI.2 else z]
    match (List.range o.zs.ub.size).mapM (fun iu => (List.range o.zs.vb.size).mapM (pole iu)) with
    | .error e => .error e
    | .ok poles =>
      match Surface.init o.zs.ub o.zs.vb poles false with
      | .error e => .error (.spline e)
      | .ok S => .ok S

end Verif.ZSurf
