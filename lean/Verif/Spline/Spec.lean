import Verif.Spline.Model
/-! Specification notions for the spline theorems, independent of the evaluation code. -/
namespace Verif.Spline

variable {K : Type} [Field K] [LinearOrder K] [IsStrictOrderedRing K]

/-- A proper basis: sorted knots, both ends repeated at least `degree+1` times, non-empty domain. -/
structure Basis.Valid (B : Basis K) : Prop where
  sorted : B.knots.Pairwise (· ≤ ·)
  start : ∀ i, i ≤ B.degree → B.knots[i]? = B.knots[0]?
  stop : ∀ i, i ≤ B.degree → B.knots.reverse[i]? = B.knots.reverse[0]?
  len : 2 * B.degree + 2 ≤ B.knots.length
  lt : B.lo < B.hi

/-- `t` lies in the closed domain. -/
def Basis.Dom (B : Basis K) (t : K) : Prop := B.lo ≤ t ∧ t ≤ B.hi

/-- `x` lies between the minimum and the maximum of the values `f i`, `i < n`: some value is below, some above. -/
def Between (n : Nat) (f : Nat → K) (x : K) : Prop := (∃ i < n, f i ≤ x) ∧ ∃ i < n, x ≤ f i

end Verif.Spline
