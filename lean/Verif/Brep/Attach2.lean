import Verif.Brep.FromBs

/-! `Edge.attach_to_2d_curve`: the ends of the edge are compared with the surface at the parameters that the curve gives. -/

namespace Verif.Brep

variable {K : Type} [Field K] [LinearOrder K] [IsStrictOrderedRing K]

/-- The point `p` agrees with the point of the surface at the parameters that the curve has at `t`, in every coordinate. -/
def OnSurface (T : Tols K) (C : Spline.Curve K) (S : Spline.Surface K) (t : K) (p : List K) : Prop :=
  ∃ u v q, C.eval T.c4 T.rt t = .ok [some u, some v] ∧ S.eval T.c4 T.rt u v = .ok q ∧ p.length = q.length ∧
    ∀ (i : Nat) a o, p[i]? = some a → q[i]? = some o → ∃ b, o = some b ∧ |a - b| ≤ T.atol + T.rtol * |b|

theorem evalCheckS_ok (T : Tols K) (S : Spline.Surface K) (u v : K) (p : List K) :
    evalCheckS T (some S) u v p = .ok () ↔ ∃ q, S.eval T.c4 T.rt u v = .ok q ∧ allclose T.atol T.rtol p q = true := by
  simp only [evalCheckS, bind, Except.bind]
  rcases h : S.eval T.c4 T.rt u v with e | q
  · cases e <;> simp [fromSpline]
  · simp only [fromSpline, Except.ok.injEq, exists_eq_left']
    split <;> simp_all

theorem evalCheck2_ok (T : Tols K) (C : Spline.Curve K) (S : Spline.Surface K) (t : K) (p : List K) :
    evalCheck2 T (some C) (some S) t p = .ok () ↔ OnSurface T C S t p := by
  unfold OnSurface
  simp only [evalCheck2, bind, Except.bind]
  rcases h : C.eval T.c4 T.rt t with e | q
  · cases e <;> simp [fromSpline]
  · simp only [fromSpline, Except.ok.injEq]
    split
    · next u v =>
      rw [evalCheckS_ok]
      simp only [allclose_iff]
      constructor
      · rintro ⟨q, h1, h2⟩
        exact ⟨u, v, q, rfl, h1, h2⟩
      · rintro ⟨u', v', q, h0, h1, h2⟩
        cases h0
        exact ⟨q, h1, h2⟩
    · next a b hn =>
      simp only [Option.isSome_some, if_true, reduceCtorEq, false_iff]
      rintro ⟨u, v, _, h0, _⟩
      simp only [List.cons.injEq, and_true] at h0
      exact hn u v h0.1 h0.2
    · next hn hn' =>
      simp only [reduceCtorEq, false_iff]
      rintro ⟨u, v, _, h0, _⟩
      exact hn u v h0

/-- **C181.** An edge is attached to a curve on a surface, both made from B-splines, exactly if each of its ends agrees with the surface
at the parameters that the curve has at that end of the range. A curve not made from a B-spline is never compared. -/
theorem attach2_iff (T : Tols K) (C : Spline.Curve K) (S : Spline.Surface K) (curve surf loc : Nat) (t0 t1 : K) (p0 p1 : List K)
    (r : Repr K) : (attach2 T (some C) (some S) curve surf loc t0 t1 p0 p1 = .ok r ↔
      r = .c2 t0 t1 curve surf loc ∧ OnSurface T C S t0 p0 ∧ OnSurface T C S t1 p1) ∧
    attach2 T none (some S) curve surf loc t0 t1 p0 p1 = .ok (.c2 t0 t1 curve surf loc) := by
  refine ⟨?_, rfl⟩
  rw [← evalCheck2_ok, ← evalCheck2_ok]
  unfold attach2
  simp only [bind, Except.bind]
  rcases evalCheck2 T (some C) (some S) t0 p0 with e | u
  · simp
  · rcases evalCheck2 T (some C) (some S) t1 p1 with e | u'
    · simp
    · simp [eq_comm]

/-- The diagonal of a square as a curve on it: the edge between opposite corners is attached, an edge to another corner is refused. -/
theorem attach2_case : ∃ (C : Spline.Curve ℚ) (S : Spline.Surface ℚ),
    attach2 ⟨1 / 10000, 1 / 1000, 0, 1 / 1000⟩ (some C) (some S) 1 2 0 0 1 [0, 0, 5] [1, 1, 5] = .ok (.c2 0 1 1 2 0) ∧
    attach2 ⟨1 / 10000, 1 / 1000, 0, 1 / 1000⟩ (some C) (some S) 1 2 0 0 1 [0, 0, 5] [1, 0, 5] = .error .exception ∧
    attach2 ⟨1 / 10000, 1 / 1000, 0, 1 / 1000⟩ (some C) (some S) 1 2 0 0 1 [1, 0, 5] [1, 1, 5] = .error .exception :=
  ⟨⟨⟨1, [0, 0, 1, 1]⟩, [[0, 0], [1, 1]], false⟩,
    ⟨⟨1, [0, 0, 1, 1]⟩, ⟨1, [0, 0, 1, 1]⟩, [[[0, 0, 5], [0, 1, 5]], [[1, 0, 5], [1, 1, 5]]], false⟩, by decide +kernel⟩

end Verif.Brep
