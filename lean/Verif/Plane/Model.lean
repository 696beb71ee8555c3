import Verif.Decomp.Model

/-! Calculations with segments of the plane, /repo/src/bgem/polygons/polygons.py lines 704-753. Coordinates are in an ordered
field. `Segment.is_on_x_line` and `Wire.contains_point` are in `Verif.Decomp.Model`. -/

namespace Verif.Plane
open Verif.Decomp (Err)

section
variable {K : Type} [Field K] [LinearOrder K]

/-- `Segment.parametric` (segment.py:74-76): the point of parameter `t` on the segment from `o` with vector `v`. -/
def parametric (o v : K × K) (t : K) : K × K := (o.1 + t * v.1, o.2 + t * v.2)

/-- `PolygonDecomposition.seg_project_point` (polygons.py:707-719). -/
def projectPoint (v o p : K × K) : Except Err K :=
  let d := v.1 * v.1 + v.2 * v.2
  if d = 0 then .error .assertion
  else .ok (min (max (((p.1 - o.1) * v.1 + (p.2 - o.2) * v.2) / d) 0) 1)

/-- `la.solve` for two equations with the columns `c0`, `c1` (polygons.py:734-736): Cramer's rule, and `LinAlgError` for a
singular matrix. numpy factorises the matrix in floating point; the result is the same in exact arithmetic. -/
def solve2 (c0 c1 r : K × K) : Option (K × K) :=
  let d := c0.1 * c1.2 - c1.1 * c0.2
  if d = 0 then none else some ((r.1 * c1.2 - c1.1 * r.2) / d, (c0.1 * r.2 - r.1 * c0.2) / d)

/-- `PolygonDecomposition.seg_intersection` (polygons.py:722-753) for the segment from `o` with vector `v` and the line from `a`
to `b`; `eps` is the constant of line 743. `(None, None)` is `none`. -/
def intersection (eps : K) (o v a b : K × K) : Option (K × K) :=
  match solve2 v (a.1 - b.1, a.2 - b.2) (a.1 - o.1, a.2 - o.2) with
  | none => none
  | some t => if (0 + eps < t.1 ∧ t.1 < 1 - eps) ∧ (0 + eps < t.2 ∧ t.2 < 1 - eps) then some t else none

end
end Verif.Plane
