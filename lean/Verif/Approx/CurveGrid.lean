import Verif.Spline.Geom

/-!
Model of `curve_from_grid` (src/bgem/bspline/bspline_approx.py:107-134).

`scipy.interpolate.splprep` is not modelled: its result `(knots, poles, degree)` is any triple.
-/
namespace Verif.Approx

open Verif.Spline

variable {K : Type} [Field K] [LinearOrder K] [IsStrictOrderedRing K]

/-- `curve_from_grid` (bspline_approx.py:123-134) with `poles` the transposed poles of `splprep`; arrays are lists of rows.
`IndexError` of `points[0]` for no points and of `curve_poles[0]` for no poles. The broadcast of a point into a row of another
length is a `ValueError`. -/
def curveFromGrid (points : List (List K)) (knots : List K) (poles : List (List K)) (degree : Nat) : Except Err (Curve K) :=
  match points.head?, points.getLast? with
  | some a, some b =>
    if poles = [] then .error .indexError
    else if a.length ≠ (poles.headD []).length ∨ b.length ≠ (poles.headD []).length then .error .valueError
    else do
      let B ← Basis.init degree knots
      Curve.init B ((poles.set 0 a).set (poles.length - 1) b) false
  | _, _ => .error .indexError

/-- C104. The curve begins in the first and ends in the last of the points, whatever poles were found by the library: for a
valid knot vector with a nonempty first interval and at least two poles. -/
theorem curve_from_grid_ends {points : List (List K)} {a b : List K} (ha : points.head? = some a)
    (hb : points.getLast? = some b) {knots : List K} {degree : Nat} (hv : (⟨degree, knots⟩ : Basis K).Valid)
    (hi : Basis.init degree knots = .ok ⟨degree, knots⟩)
    (hf : (⟨degree, knots⟩ : Basis K).k degree < (⟨degree, knots⟩ : Basis K).k (degree + 1)) {poles : List (List K)}
    (hl : poles.length = (⟨degree, knots⟩ : Basis K).size) (h2 : 2 ≤ poles.length) {dim : Nat} (hda : a.length = dim)
    (hdb : b.length = dim) (hdim : ∀ p ∈ poles, p.length = dim) (c4 rtol : K) :
    ∃ C, curveFromGrid points knots poles degree = .ok C ∧
      C.eval c4 rtol (⟨degree, knots⟩ : Basis K).lo = .ok (a.map some) ∧
      C.eval c4 rtol (⟨degree, knots⟩ : Basis K).hi = .ok (b.map some) := by
  obtain ⟨p, q, r, hp⟩ : ∃ p q r, poles = p :: q :: r := by
    match poles, h2 with
    | p :: q :: r, _ => exact ⟨p, q, r, rfl⟩
  set B : Basis K := ⟨degree, knots⟩ with hB
  set P := (poles.set 0 a).set (poles.length - 1) b with hP
  have hlenP : P.length = poles.length := by simp [hP]
  have h0 : P[0]? = some a := by
    rw [hP, List.getElem?_set_ne (by omega), List.getElem?_set_self (by omega)]
  have hn : P[poles.length - 1]? = some b := by
    rw [hP, List.getElem?_set_self (by simp; omega)]
  have hmem : ∀ x ∈ P, x.length = dim := by
    intro x hx
    rcases List.mem_or_eq_of_mem_set hx with hx | rfl
    · rcases List.mem_or_eq_of_mem_set hx with hx | rfl
      · exact hdim x hx
      · exact hda
    · exact hdb
  have hhead : P.headD [] = a := by
    rw [List.headD_eq_head?_getD, List.head?_eq_getElem?, h0]; rfl
  have hC : Curve.init B P false = .ok ⟨B, P, false⟩ := by
    unfold Curve.init
    rw [if_neg (by rw [hlenP, hl]; simp), if_neg (by intro h; rw [h] at hlenP; simp at hlenP; omega), if_neg]
    rintro ⟨x, hx, hne⟩
    rw [hhead, hda] at hne
    exact hne (hmem x hx)
  have hpl : (poles.headD []).length = dim := by rw [hp]; exact hdim p (by rw [hp]; simp)
  have key : ∀ (i : Nat) (x : List K), P[i]? = some x → x.length = dim →
      ((List.range (Curve.dim ⟨B, P, false⟩)).map fun d => some (Curve.pole ⟨B, P, false⟩ i d)) = x.map some := by
    intro i x hx hxl
    have hd : Curve.dim ⟨B, P, false⟩ = x.length := by
      show (P.headD []).length - _ = _
      rw [hhead, hda, hxl]
      simp
    rw [hd]
    apply List.ext_getElem?
    intro d
    by_cases h : d < x.length
    · simp [Curve.pole, List.getD_eq_getElem?_getD, hx, h]
    · simp [h, Nat.le_of_not_lt h]
  obtain ⟨e1, e2⟩ := curve_ends B hv P _ hC c4 rtol
  refine ⟨⟨B, P, false⟩, ?_, ?_, ?_⟩
  · unfold curveFromGrid
    rw [ha, hb]
    simp only
    rw [if_neg (by rw [hp]; simp), if_neg (by rw [hpl, hda, hdb]; simp), hi]
    exact hC
  · rw [e1 hf]
    exact congrArg _ (key 0 a h0 hda)
  · rw [e2, ← hl]
    exact congrArg _ (key _ b hn hdb)

/-- three points in the plane, a library result that misses both ends -/
example : ∃ C : Curve ℚ, curveFromGrid [[0, 0], [1, 5], [2, 1]] [0, 0, 0, 1, 1, 1] [[1, 1], [3, 4], [9, 9]] 2 = .ok C ∧
    C.eval 0 0 0 = .ok [some 0, some 0] ∧ C.eval 0 0 1 = .ok [some 2, some 1] := by
  refine ⟨⟨⟨2, [0, 0, 0, 1, 1, 1]⟩, [[0, 0], [3, 4], [2, 1]], false⟩, ?_⟩
  decide +kernel

end Verif.Approx
