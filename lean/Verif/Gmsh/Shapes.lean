import Mathlib.Algebra.Order.Field.Basic
import Mathlib.Data.Rat.Defs
import Mathlib.Tactic.Linarith
import Mathlib.Tactic.FieldSimp
import Mathlib.Tactic.Ring
import Mathlib.Tactic.IntervalCases
import Mathlib.Algebra.Order.Ring.Rat

/-!
Model of the shapes made in src/bgem/gmsh/gmsh.py. The tags given by the library to points and lines are arbitrary.
-/
namespace Verif.Gmsh.Shapes

variable {K : Type}

/-! ### Reference simplex -/

/-- The points of the reference simplex (gmsh.py:238). -/
def simplexPoints : List (Nat × Nat × Nat) := [(0, 0, 0), (1, 0, 0), (0, 1, 0), (0, 0, 1)]

/-- The lines (gmsh.py:239). -/
def simplexLines : List (Nat × Nat) := [(0, 1), (1, 2), (2, 0), (0, 3), (1, 3), (2, 3)]

/-- The faces (gmsh.py:240). -/
def simplexFaces : List (Nat × Nat × Nat) := [(0, 1, 2), (0, 3, 4), (2, 3, 5), (1, 4, 5)]

/-- What `make_simplex` passes to the library: points, ends of the lines, lines of the curve loops; then the number of faces of
the surface loop. -/
structure Simplex where
  points : List (Nat × Nat × Nat)
  lines : List (Nat × Nat)
  loops : List (List Nat)
  faces : Nat
  deriving DecidableEq

/-- `make_simplex` (gmsh.py:232-259); `pt i` is the tag of the `i`-th point and `ln i` of the `i`-th line. `none` for other
dimensions, where `res` is unbound. -/
def makeSimplex (pt ln : Nat → Nat) : Nat → Option Simplex
  | 0 => some ⟨simplexPoints.take 1, [], [], 0⟩
  | 1 => some ⟨simplexPoints.take 2, [(pt 0, pt 1)], [], 0⟩
  | 2 => some ⟨simplexPoints.take 3, (simplexLines.take 3).map fun l => (pt l.1, pt l.2), [[ln 0, ln 1, ln 2]], 1⟩
  | 3 => some ⟨simplexPoints, simplexLines.map fun l => (pt l.1, pt l.2), simplexFaces.map fun f => [ln f.1, ln f.2.1, ln f.2.2], 4⟩
  | _ => none

/-- The number of ends at the point with the tag `p` of the lines with tags in `l`. -/
def ends (s : Simplex) (ln : Nat → Nat) (l : List Nat) (p : Nat) : Nat :=
  (l.map fun t => ((s.lines.zipIdx.filter fun x => ln x.2 = t).map fun x =>
    (if x.1.1 = p then 1 else 0) + if x.1.2 = p then 1 else 0).sum).sum

/-- The tetrahedron is closed for all tags given by the library: there are 4 points, 6 lines with different ends and 4 loops of
three lines; in every loop each point is an end of no line or of two lines; every line is in exactly two loops. -/
theorem simplex_closed {pt ln : Nat → Nat} (hp : Function.Injective pt) (hl : Function.Injective ln) :
    ∃ s, makeSimplex pt ln 3 = some s ∧ s.points.Nodup ∧ s.points.length = 4 ∧ s.lines.length = 6 ∧ s.lines.Nodup ∧
      s.loops.length = 4 ∧ s.faces = s.loops.length ∧ (∀ l ∈ s.lines, l.1 ≠ l.2) ∧
      (∀ l ∈ s.loops, l.length = 3 ∧ l.Nodup ∧ ∀ i < 4, ends s ln l (pt i) = 0 ∨ ends s ln l (pt i) = 2) ∧
      ∀ i < 6, (s.loops.filter fun l => ln i ∈ l).length = 2 := by
  refine ⟨_, rfl, show simplexPoints.Nodup by decide, rfl, rfl, ?_, rfl, rfl, ?_, ?_, ?_⟩
  · simp [simplexLines, hp.eq_iff]
  · simp [simplexLines, hp.eq_iff]
  · intro l hlm
    simp only [simplexFaces, List.map_cons, List.map_nil, List.mem_cons, List.not_mem_nil, or_false] at hlm
    rcases hlm with rfl | rfl | rfl | rfl <;>
    · refine ⟨rfl, by simp [hl.eq_iff], fun i hi => ?_⟩
      interval_cases i <;> simp [ends, simplexLines, hp.eq_iff, hl.eq_iff, List.zipIdx, List.filter]
  · intro i hi
    interval_cases i <;> simp [simplexFaces, hl.eq_iff, List.filter]

/-- Also the triangle has a closed boundary. -/
theorem triangle_closed {pt ln : Nat → Nat} (hp : Function.Injective pt) (hl : Function.Injective ln) :
    ∃ s, makeSimplex pt ln 2 = some s ∧ s.points.Nodup ∧ s.points.length = 3 ∧ s.lines.length = 3 ∧
      (∀ l ∈ s.loops, ∀ i < 3, ends s ln l (pt i) = 2) ∧ s.loops.length = 1 := by
  refine ⟨_, rfl, show (simplexPoints.take 3).Nodup by decide, rfl, rfl, ?_, rfl⟩
  intro l hlm i hi
  rw [List.mem_singleton.1 hlm]
  interval_cases i <;> simp [ends, simplexLines, hp.eq_iff, hl.eq_iff, List.zipIdx, List.filter]

/-- The determinant of the edges from the first point of a tetrahedron. -/
def spat : List (Nat × Nat × Nat) → Int
  | [a, b, c, d] =>
    let e := fun (p : Nat × Nat × Nat) => ((p.1 : Int) - a.1, (p.2.1 : Int) - a.2.1, (p.2.2 : Int) - a.2.2)
    let (x, y, z) := (e b, e c, e d)
    x.1 * (y.2.1 * z.2.2 - y.2.2 * z.2.1) - x.2.1 * (y.1 * z.2.2 - y.2.2 * z.1) + x.2.2 * (y.1 * z.2.1 - y.2.1 * z.1)
  | _ => 0

/-- The tetrahedron is not flat and has the orientation of the axes, for all tags. -/
theorem simplex_solid (pt ln : Nat → Nat) : ∃ s, makeSimplex pt ln 3 = some s ∧ spat s.points = 1 :=
  ⟨_, rfl, show spat simplexPoints = 1 by decide⟩

/-- Tags from 1 as the library gives in an empty model. -/
example : ∃ s, makeSimplex (· + 1) (· + 1) 3 = some s ∧ s.lines = [(1, 2), (2, 3), (3, 1), (1, 4), (2, 4), (3, 4)] ∧
    s.loops = [[1, 2, 3], [1, 4, 5], [3, 4, 6], [2, 5, 6]] := ⟨_, rfl, by decide, by decide⟩

/-! ### `rectangle` -/

/-- `rectangle` (gmsh.py:261-266): the list `sides` is the argument, for a call without it the default list of the function,
which is the same object in all calls. The arguments of `addRectangle` or `none` if the arrays do not fit
(`ValueError`), and the list after the call. The center has three components. -/
def rectangle [Field K] (sides : List K) (center : K × K × K) : Option ((K × K × K) × K × K) × List K :=
  match sides ++ [0] with
  | [x] => (some ((center.1 - x / 2, center.2.1 - x / 2, center.2.2 - x / 2), 0, 0), [x])
  | [a, b, z] => (some ((center.1 - a / 2, center.2.1 - b / 2, center.2.2 - z / 2), a, b), [a, b, z])
  | l => (none, l)

/-- The first call with a list of two sides makes the rectangle of these sides around the center, but it appends to the list.
All later calls with the same list raise; the default argument is such a list. -/
theorem rectangle_once [Field K] (a b : K) (c : K × K × K) :
    (rectangle [a, b] c).1 = some ((c.1 - a / 2, c.2.1 - b / 2, c.2.2), a, b) ∧ 3 ≤ (rectangle [a, b] c).2.length ∧
    ∀ l : List K, 3 ≤ l.length → ∀ c', (rectangle l c').1 = none ∧ 3 ≤ (rectangle l c').2.length := by
  refine ⟨by simp [rectangle], by simp [rectangle], fun l hl c' => ?_⟩
  match l, hl with
  | x :: y :: z :: t, _ =>
    cases t <;> simp [rectangle]

example : (rectangle [1, 1] ((0, 0, 0) : ℚ × ℚ × ℚ)).1 = some ((-1/2, -1/2, 0), 1, 1) ∧
    (rectangle (rectangle [1, 1] ((0, 0, 0) : ℚ × ℚ × ℚ)).2 (0, 0, 0)).1 = none := by decide +kernel

/-! ### `make_rectangle` -/

/-- The corners in `make_rectangle` (gmsh.py:330-331). -/
def corners [Field K] (s : K × K) : List (K × K) := [(1, 1), (1, -1), (-1, 1), (-1, -1)].map fun p => (p.1 * s.1, p.2 * s.2)

/-- The ends of the lines of `make_rectangle` (gmsh.py:333): from the corner `i - 1` to the corner `i`, the first one from the last
corner. -/
def rectLines [Field K] (s : K × K) : List ((K × K) × (K × K)) :=
  match corners s with
  | [p, q, r, t] => [(t, p), (p, q), (q, r), (r, t)]
  | _ => []

/-- The lines are not the boundary of the rectangle: for every scale the first and the third one, which have no common end,
cross in their midpoints. -/
theorem make_rectangle_crosses [Field K] [LinearOrder K] [IsStrictOrderedRing K] (s : K × K) (hx : s.1 ≠ 0) (hy : s.2 ≠ 0) :
    ∃ l1 l3, (rectLines s)[0]? = some l1 ∧ (rectLines s)[2]? = some l3 ∧
      l1.1 ≠ l3.1 ∧ l1.1 ≠ l3.2 ∧ l1.2 ≠ l3.1 ∧ l1.2 ≠ l3.2 ∧
      ((l1.1.1 + l1.2.1) / 2, (l1.1.2 + l1.2.2) / 2) = ((l3.1.1 + l3.2.1) / 2, (l3.1.2 + l3.2.2) / 2) := by
  have key : ∀ {a : K}, a ≠ 0 → a ≠ -a := fun h he => h (by linarith)
  refine ⟨_, _, rfl, rfl, ?_, ?_, ?_, ?_, ?_⟩
  · intro h
    have := congrArg Prod.fst h
    simp only [one_mul, neg_mul] at this
    exact key hx this.symm
  · intro h
    have := congrArg Prod.snd h
    simp only [one_mul, neg_mul] at this
    exact key hy this.symm
  · intro h
    have := congrArg Prod.snd h
    simp only [one_mul, neg_mul] at this
    exact key hy this
  · intro h
    have := congrArg Prod.fst h
    simp only [one_mul, neg_mul] at this
    exact key hx this
  · simp

example : rectLines ((2, 1) : ℚ × ℚ) = [((-2, -1), (2, 1)), ((2, 1), (2, -1)), ((2, -1), (-2, 1)), ((-2, 1), (-2, -1))] := by
  decide +kernel

/-! ### `make_polygon` -/

/-- The lines of `make_polygon` (gmsh.py:294-296) for the tags of the points; `none` for no points (`IndexError`). -/
def polygonLines (pts : List Nat) : Option (List (Nat × Nat)) :=
  match pts with
  | [] => none
  | v :: _ => some ((pts ++ [v]).dropLast.zip (pts ++ [v]).tail)

/-- The lines connect the vertices in a cycle: the line `i` goes from the vertex `i` to the next one, the last one to the first. -/
theorem polygon_cycle {pts : List Nat} (h : pts ≠ []) : ∃ ls, polygonLines pts = some ls ∧ ls.length = pts.length ∧
    ∀ i (hi : i < pts.length), ls[i]? = some (pts[i], pts[(i + 1) % pts.length]'(Nat.mod_lt _ (by omega))) := by
  match pts, h with
  | v :: t, _ =>
    refine ⟨_, rfl, ?_, fun i hi => ?_⟩
    · simp
    · rw [List.getElem?_zip_eq_some]
      refine ⟨?_, ?_⟩
      · rw [List.dropLast_concat]
        exact List.getElem?_eq_getElem hi
      · rw [List.cons_append, List.tail_cons]
        rw [List.length_cons] at hi
        by_cases hl : i + 1 = (v :: t).length
        · have e : (i + 1) % (v :: t).length = 0 := by rw [hl]; exact Nat.mod_self _
          have hi' : i = t.length := by simpa using hl
          simp only [e, List.getElem_cons_zero]
          rw [hi']
          simp
        · have hlt : i + 1 < (v :: t).length := by rw [List.length_cons] at hl ⊢; omega
          have e : (i + 1) % (v :: t).length = i + 1 := Nat.mod_eq_of_lt hlt
          have hlt' : i < t.length := by simpa using hlt
          simp only [e, List.getElem_cons_succ]
          rw [List.getElem?_append_left hlt', List.getElem?_eq_getElem hlt']

example : polygonLines [5, 6, 9] = some [(5, 6), (6, 9), (9, 5)] := by decide

end Verif.Gmsh.Shapes
