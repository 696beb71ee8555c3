import Verif.ZSurf.Grid

/-! The centre and the quad of transformed surfaces. -/

namespace Verif.ZSurf
open Verif.Spline

variable {K : Type} [Field K] [LinearOrder K] [IsStrictOrderedRing K]

/-- `Z_Surface.center` (bspline.py:917-922); `GridSurface.center` (1163-1164) multiplies by the constant `z_scale = 1` and adds
`z_shift = 0` in `eval_array`, which changes nothing. -/
def center (cs : Consts K) (w : World K) (i : Nat) : Except Exc (K × K × K) := evalPoint cs w i (1 / 2) (1 / 2)

/-- The quad that `GridSurface.transform` stores (bspline.py:1092-1102): the images of `(0, 1)`, `(0, 0)`, `(1, 0)`, `(1, 1)`. -/
def gridQuad (w : World K) (i : Nat) : Except Exc (Quad K) := do
  let q0 ← uvToXy w i ⟨0, 1⟩
  let q1 ← uvToXy w i ⟨0, 0⟩
  let q2 ← uvToXy w i ⟨1, 0⟩
  let q3 ← uvToXy w i ⟨1, 1⟩
  pure ⟨q0, q1, q2, q3⟩

/-- **C174.** `transform` with the shifts `b` and `h` puts the centre at the middle of the given quad moved by exactly the shifts, whatever
the matrix, the Z scale and the former transforms are: all of them turn and stretch the surface about its centre. -/
theorem transform_center (cs : Consts K) (pre post : List (Op K)) (q : Quad K) (S : Surface K) (A : M2 K) (b : V2 K) (s h : K)
    (w0 w1 w : World K) (h0 : run cs [] pre = (w0, none)) (h1 : run cs w0 (.new q S :: post) = (w1, none))
    (h2 : step cs w1 (.transform w0.length (some (A, b)) (some (s, h))) = (w, none)) :
    ∃ o zc, w1[w0.length]? = some o ∧ zRaw cs o.zs (1 / 2) (1 / 2) = .ok zc ∧
      center cs w w0.length = .ok ((q.q0.x + q.q2.x) / 2 + b.x, (q.q0.y + q.q2.y) / 2 + b.y, zc + h) := by
  obtain ⟨k1, _⟩ := transform_affine cs pre post q S A b (some (s, h)) w0 w1 w h0 h1 h2
  have h01 : run cs [] (pre ++ .new q S :: post) = (w1, none) := by
    have app : ∀ (l : List (Op K)) (v v1 : World K) (m : List (Op K)), run cs v l = (v1, none) → run cs v (l ++ m) = run cs v1 m := by
      intro l
      induction l with
      | nil =>
        intro v v1 m hh
        cases hh
        rfl
      | cons a l ih =>
        intro v v1 m hh
        rw [List.cons_append, run]
        rw [run] at hh
        split at hh
        · cases hh
        · next v2 hv => exact ih v2 v1 m hh
    rw [app pre [] w0 _ h0]
    exact h1
  have : ∃ o, w1[w0.length]? = some o := by
    cases ho : w1[w0.length]? with
    | none => simp [step, ho] at h2
    | some o => exact ⟨o, rfl⟩
  obtain ⟨o, ho⟩ := this
  obtain ⟨o', zc, e1, e2, e3⟩ := transform_z cs _ w1 w h01 w0.length o ho (some (A, b)) s h h2
  refine ⟨o, zc, ho, e2, ?_⟩
  simp only [center, evalPoint, e1, e3 _ _ _ e2, k1]
  simp only [moved, Quad.map, Except.ok.injEq, Prod.mk.injEq]
  refine ⟨?_, ?_, ?_⟩ <;> ring

/-- **C174.** After the same call the quad of the `GridSurface` is the one of its `Z_Surface`, if the given quad is a parallelogram. -/
theorem transform_quad (cs : Consts K) (pre post : List (Op K)) (q : Quad K) (S : Surface K) (A : M2 K) (b : V2 K) (z : Option (K × K))
    (w0 w1 w : World K) (h0 : run cs [] pre = (w0, none)) (h1 : run cs w0 (.new q S :: post) = (w1, none))
    (h2 : step cs w1 (.transform w0.length (some (A, b)) z) = (w, none)) (hq : q.Exact) :
    ∃ o, w[w0.length]? = some o ∧ gridQuad w w0.length = .ok o.quad := by
  obtain ⟨k1, o, k2, k3⟩ := transform_affine cs pre post q S A b z w0 w1 w h0 h1 h2
  refine ⟨o, k2, ?_⟩
  simp only [gridQuad, k1, bind, Except.bind, pure, Except.pure, k3, Except.ok.injEq]
  obtain ⟨⟨a, b⟩, ⟨c, d⟩, ⟨e, f⟩, ⟨g, i⟩⟩ := q
  simp only [Quad.Exact, V2.add, V2.sub, V2.mk.injEq] at hq
  obtain ⟨rfl, rfl⟩ := hq
  simp only [moved, Quad.map, Quad.mk.injEq, V2.mk.injEq]
  refine ⟨⟨?_, ?_⟩, ⟨?_, ?_⟩, ⟨?_, ?_⟩, ?_, ?_⟩ <;> ring

/-- The hypotheses: a quarter turn with shift `(1, 1)` and Z scale 2 with shift 3, after another transform. -/
theorem center_case : run exCs [] [.new exQuad exS, .transform 0 (some (⟨2, 0, 0, 1⟩, ⟨0, 5⟩)) (some (0, 7))] =
      ((run exCs [] [.new exQuad exS, .transform 0 (some (⟨2, 0, 0, 1⟩, ⟨0, 5⟩)) (some (0, 7))]).1, none) ∧
    center exCs (run exCs [] [.new exQuad exS]).1 0 = .ok (2, 1, 5 / 2) ∧
    (run exCs [] [.new exQuad exS, .transform 0 (some (⟨2, 0, 0, 1⟩, ⟨0, 5⟩)) (some (0, 7)),
      .transform 0 (some (⟨0, -1, 1, 0⟩, ⟨1, 1⟩)) (some (2, 3))]).2 = none ∧
    center exCs (run exCs [] [.new exQuad exS, .transform 0 (some (⟨2, 0, 0, 1⟩, ⟨0, 5⟩)) (some (0, 7)),
      .transform 0 (some (⟨0, -1, 1, 0⟩, ⟨1, 1⟩)) (some (2, 3))]).1 0 = .ok (3, 2, 11 / 2) ∧ exQuad.Exact := by
  refine ⟨Prod.ext rfl (by decide +kernel), by decide +kernel, by decide +kernel, by decide +kernel, rfl⟩

end Verif.ZSurf
