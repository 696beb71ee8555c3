import Verif.Approx.Fit
import Mathlib.LinearAlgebra.Matrix.ToLin
import Mathlib.LinearAlgebra.FiniteDimensional.Basic

/-!
Model of the regularization matrix of `SurfaceApprox` (src/bgem/bspline/bspline_approx.py:578-669) and of the system of
equations of `compute_approximation` (bspline_approx.py:385-476), with exact numbers.
-/
namespace Verif.Approx

open Verif.Spline Finset

variable {K : Type} [Field K] [LinearOrder K] [IsStrictOrderedRing K]

/-- `_q_points` (bspline_approx.py:627); `q` stands for `1 / np.sqrt(20)`. -/
def qPoint (q : K) (j : Nat) : K := [0, 1 / 2 - q, 1 / 2 + q, 1].getD j 0

/-- `_q_weights` (bspline_approx.py:628). -/
def qWeight (j : Nat) : K := [1 / 6, 5 / 6, 5 / 6, 1 / 6].getD j 0

/-- The point `up` of interval `i` (bspline_approx.py:588-591). -/
def qAt (B : Basis K) (q : K) (i j : Nat) : K := B.k (i + 2) + (B.k (i + 3) - B.k (i + 2)) * qPoint q j

/-- `point_val_outer[a, b, i]` of `_basis_in_q_points` (bspline_approx.py:578-599). -/
def valOuter (B : Basis K) (q : K) (i a b : Nat) : K :=
  ∑ j ∈ range 4, qWeight j * ((B.evalVector2 i (qAt B q i j)).getD a 0 * (B.evalVector2 i (qAt B q i j)).getD b 0)

/-- `d_point_val_outer[a, b, i]` of `_basis_in_q_points` (bspline_approx.py:578-599). -/
def diffOuter (B : Basis K) (q : K) (i a b : Nat) : K :=
  ∑ j ∈ range 4, qWeight j * ((B.evalDiffVector2 i (qAt B q i j)).getD a 0 * (B.evalDiffVector2 i (qAt B q i j)).getD b 0)

/-- `np.kron` of two 3 x 3 matrices. -/
def kron (M N : Nat → Nat → K) (r c : Nat) : K := M (r / 3) (c / 3) * N (r % 3) (c % 3)

/-- `colv[r]` of a cell (bspline_approx.py:644, 661-662). -/
def colv (nu iu iv r : Nat) : Nat := iu + iv * nu + (nu * (r / 3) + r % 3)

/-- `_build_sparse_reg_matrix` (bspline_approx.py:602-669); the items in the order of the arrays. -/
def regItems (ub vb : Basis K) (q : K) : List (Item K) :=
  (List.range vb.nIntervals).flatMap fun iv => (List.range ub.nIntervals).flatMap fun iu =>
    (List.range 9).flatMap fun r => (List.range 9).map fun c =>
      (colv ub.size iu iv c, colv ub.size iu iv r,
        1 / (ub.nIntervals : K) / (vb.nIntervals : K) *
          (kron (valOuter vb q iv) (diffOuter ub q iu) r c + kron (diffOuter vb q iv) (valOuter ub q iu) r c))

/-- The quadratic form of a matrix: `yᵀ A z`. -/
def form (ts : List (Item K)) (m : Nat) (y z : Nat → K) : K := ∑ i ∈ range m, y i * mulVec ts m z i

/-! ### Sums over items -/

omit [LinearOrder K] [IsStrictOrderedRing K] in
theorem form_eq {m : Nat} (y z : Nat → K) (ts : List (Item K)) (h : ∀ t ∈ ts, t.1 < m ∧ t.2.1 < m) :
    form ts m y z = (ts.map fun t => t.2.2 * y t.1 * z t.2.1).sum := by
  unfold form
  rw [sum_congr rfl fun i _ => by rw [mulVec_eq z i ts fun t ht => (h t ht).2]]
  induction ts with
  | nil => simp
  | cons t ts ih =>
    simp only [List.map_cons, List.sum_cons, mul_add, sum_add_distrib]
    rw [ih fun t ht => h t (List.mem_cons_of_mem _ ht)]
    congr 1
    rw [sum_eq_single t.1]
    · rw [if_pos rfl]; ring
    · intro i _ hi; rw [if_neg (Ne.symm hi), mul_zero]
    · intro hn; exact absurd (mem_range.2 (h t (by simp)).1) hn

omit [LinearOrder K] [IsStrictOrderedRing K] in
theorem sum_flatMap {β : Type} (g : β → K) (n : Nat) (f : Nat → List β) :
    (((List.range n).flatMap f).map g).sum = ∑ k ∈ range n, ((f k).map g).sum := by
  induction n with
  | zero => simp
  | succ n ih => rw [List.range_succ, List.flatMap_append, List.map_append, List.sum_append, ih, sum_range_succ]; simp

omit [LinearOrder K] [IsStrictOrderedRing K] in
theorem sum_mapRange {β : Type} (g : β → K) (n : Nat) (f : Nat → β) :
    (((List.range n).map f).map g).sum = ∑ k ∈ range n, g (f k) := by
  induction n with
  | zero => simp
  | succ n ih => rw [List.range_succ, List.map_append, List.map_append, List.sum_append, ih, sum_range_succ]; simp

omit [LinearOrder K] [IsStrictOrderedRing K] in
theorem sum9 (f : Nat → Nat → K) : ∑ r ∈ range 9, f (r / 3) (r % 3) = ∑ p ∈ range 3 ×ˢ range 3, f p.1 p.2 := by
  rw [sum_product]
  simp only [sum_range_succ, sum_range_zero]
  norm_num
  ring

theorem colv_lt {nu nv iu iv r : Nat} (h1 : iu + 3 ≤ nu) (h2 : iv + 3 ≤ nv) (hr : r < 9) : colv nu iu iv r < nu * nv := by
  have : colv nu iu iv r = (iv + r / 3) * nu + (iu + r % 3) := by unfold colv; ring
  rw [this]
  exact col_lt (by omega) (by omega)

theorem Fit2.size_eq {B : Basis K} (h : Fit2 B) : B.size = B.nIntervals + 2 := by
  have := h.valid.len
  have := h.deg
  unfold Basis.nIntervals Basis.size
  omega

theorem regItems_range {ub vb : Basis K} (hu : Fit2 ub) (hv : Fit2 vb) (q : K) :
    ∀ t ∈ regItems ub vb q, t.1 < ub.size * vb.size ∧ t.2.1 < ub.size * vb.size := by
  intro t ht
  unfold regItems at ht
  simp only [List.mem_flatMap, List.mem_map, List.mem_range] at ht
  obtain ⟨iv, h1, iu, h2, r, hr, c, hc, rfl⟩ := ht
  have := hu.size_eq
  have := hv.size_eq
  exact ⟨colv_lt (by omega) (by omega) hc, colv_lt (by omega) (by omega) hr⟩

/-- height of the pole `p` of a cell -/
def cellPole (nu : Nat) (z : Nat → K) (iu iv : Nat) (p : Nat × Nat) : K := z ((iv + p.1) * nu + (iu + p.2))

/-- the form of the regularization matrix, cell by cell -/
theorem reg_form {ub vb : Basis K} (hu : Fit2 ub) (hv : Fit2 vb) (q : K) (y z : Nat → K) :
    form (regItems ub vb q) (ub.size * vb.size) y z = ∑ iv ∈ range vb.nIntervals, ∑ iu ∈ range ub.nIntervals,
      1 / (ub.nIntervals : K) / (vb.nIntervals : K) * ∑ p ∈ range 3 ×ˢ range 3, ∑ p' ∈ range 3 ×ˢ range 3,
        (valOuter vb q iv p.1 p'.1 * diffOuter ub q iu p.2 p'.2 + diffOuter vb q iv p.1 p'.1 * valOuter ub q iu p.2 p'.2) *
          (cellPole ub.size z iu iv p * cellPole ub.size y iu iv p') := by
  rw [form_eq y z _ (regItems_range hu hv q)]
  unfold regItems
  rw [sum_flatMap]
  refine sum_congr rfl fun iv _ => ?_
  rw [sum_flatMap]
  refine sum_congr rfl fun iu _ => ?_
  rw [sum_flatMap, mul_sum, ← sum9 fun a b => 1 / (ub.nIntervals : K) / (vb.nIntervals : K) *
    ∑ p' ∈ range 3 ×ˢ range 3, (valOuter vb q iv a p'.1 * diffOuter ub q iu b p'.2 +
      diffOuter vb q iv a p'.1 * valOuter ub q iu b p'.2) *
        (cellPole ub.size z iu iv (a, b) * cellPole ub.size y iu iv p')]
  refine sum_congr rfl fun r _ => ?_
  rw [sum_mapRange, mul_sum, ← sum9 fun a b => 1 / (ub.nIntervals : K) / (vb.nIntervals : K) *
    ((valOuter vb q iv (r / 3) a * diffOuter ub q iu (r % 3) b +
      diffOuter vb q iv (r / 3) a * valOuter ub q iu (r % 3) b) *
        (cellPole ub.size z iu iv (r / 3, r % 3) * cellPole ub.size y iu iv (a, b)))]
  refine sum_congr rfl fun c _ => ?_
  have e : ∀ r, colv ub.size iu iv r = (iv + r / 3) * ub.size + (iu + r % 3) := fun r => by unfold colv; ring
  simp only [kron, cellPole, e]
  ring

omit [LinearOrder K] [IsStrictOrderedRing K] in
/-- sums of outer products with weights are sums of squares -/
theorem outer_sq (w : Nat → K) (x d : Nat → Nat → K) (z : Nat × Nat → K) :
    ∑ p ∈ range 3 ×ˢ range 3, ∑ p' ∈ range 3 ×ˢ range 3,
      ((∑ j ∈ range 4, w j * (x j p.1 * x j p'.1)) * (∑ k ∈ range 4, w k * (d k p.2 * d k p'.2))) * (z p * z p') =
    ∑ j ∈ range 4, ∑ k ∈ range 4, w j * w k * (∑ p ∈ range 3 ×ˢ range 3, x j p.1 * d k p.2 * z p) ^ 2 := by
  have h1 : ∀ p p' : Nat × Nat,
      ((∑ j ∈ range 4, w j * (x j p.1 * x j p'.1)) * (∑ k ∈ range 4, w k * (d k p.2 * d k p'.2))) * (z p * z p') =
      ∑ t ∈ range 4 ×ˢ range 4, w t.1 * w t.2 * ((x t.1 p.1 * d t.2 p.2 * z p) * (x t.1 p'.1 * d t.2 p'.2 * z p')) := by
    intro p p'
    rw [sum_mul_sum, sum_product, sum_mul]
    refine sum_congr rfl fun j _ => ?_
    rw [sum_mul]
    exact sum_congr rfl fun k _ => by ring
  simp only [h1]
  have h2 : ∀ F : Nat × Nat → Nat × Nat → Nat × Nat → K,
      ∑ p ∈ range 3 ×ˢ range 3, ∑ p' ∈ range 3 ×ˢ range 3, ∑ t ∈ range 4 ×ˢ range 4, F p p' t =
      ∑ t ∈ range 4 ×ˢ range 4, ∑ p ∈ range 3 ×ˢ range 3, ∑ p' ∈ range 3 ×ˢ range 3, F p p' t := by
    intro F
    have h3 : ∀ p ∈ range 3 ×ˢ range 3, ∑ p' ∈ range 3 ×ˢ range 3, ∑ t ∈ range 4 ×ˢ range 4, F p p' t =
        ∑ t ∈ range 4 ×ˢ range 4, ∑ p' ∈ range 3 ×ˢ range 3, F p p' t := fun p _ => sum_comm
    rw [sum_congr rfl h3, sum_comm]
  rw [h2, sum_product]
  refine sum_congr rfl fun j _ => sum_congr rfl fun k _ => ?_
  rw [sq, sum_mul_sum, mul_sum]
  refine sum_congr rfl fun p _ => ?_
  rw [mul_sum]

/-- the derivative of the surface by `u` on a cell, at quadrature points `j` in `v` and `k` in `u` -/
def cellDu (ub vb : Basis K) (q : K) (z : Nat → K) (iu iv j k : Nat) : K :=
  ∑ p ∈ range 3 ×ˢ range 3, (vb.evalVector2 iv (qAt vb q iv j)).getD p.1 0 *
    (ub.evalDiffVector2 iu (qAt ub q iu k)).getD p.2 0 * cellPole ub.size z iu iv p

/-- the derivative of the surface by `v` on a cell -/
def cellDv (ub vb : Basis K) (q : K) (z : Nat → K) (iu iv j k : Nat) : K :=
  ∑ p ∈ range 3 ×ˢ range 3, (vb.evalDiffVector2 iv (qAt vb q iv j)).getD p.1 0 *
    (ub.evalVector2 iu (qAt ub q iu k)).getD p.2 0 * cellPole ub.size z iu iv p

/-- The form is a sum of squares. -/
theorem reg_squares {ub vb : Basis K} (hu : Fit2 ub) (hv : Fit2 vb) (q : K) (z : Nat → K) :
    form (regItems ub vb q) (ub.size * vb.size) z z = ∑ iv ∈ range vb.nIntervals, ∑ iu ∈ range ub.nIntervals,
      1 / (ub.nIntervals : K) / (vb.nIntervals : K) * ∑ j ∈ range 4, ∑ k ∈ range 4, qWeight j * qWeight k *
        (cellDu ub vb q z iu iv j k ^ 2 + cellDv ub vb q z iu iv j k ^ 2) := by
  rw [reg_form hu hv]
  refine sum_congr rfl fun iv _ => sum_congr rfl fun iu _ => ?_
  congr 1
  have h1 := outer_sq (fun j => qWeight (K := K) j) (fun j a => (vb.evalVector2 iv (qAt vb q iv j)).getD a 0)
    (fun k b => (ub.evalDiffVector2 iu (qAt ub q iu k)).getD b 0) (cellPole ub.size z iu iv)
  have h2 := outer_sq (fun j => qWeight (K := K) j) (fun j a => (vb.evalDiffVector2 iv (qAt vb q iv j)).getD a 0)
    (fun k b => (ub.evalVector2 iu (qAt ub q iu k)).getD b 0) (cellPole ub.size z iu iv)
  simp only [add_mul, sum_add_distrib, mul_add]
  exact congrArg₂ (· + ·) h1 h2

/-! ### Symmetry, sign and kernel -/

omit [IsStrictOrderedRing K] [LinearOrder K] in
theorem valOuter_symm (B : Basis K) (q : K) (i a b : Nat) : valOuter B q i a b = valOuter B q i b a :=
  sum_congr rfl fun j _ => by ring

omit [IsStrictOrderedRing K] [LinearOrder K] in
theorem diffOuter_symm (B : Basis K) (q : K) (i a b : Nat) : diffOuter B q i a b = diffOuter B q i b a :=
  sum_congr rfl fun j _ => by ring

/-- The regularization matrix is symmetric. -/
theorem reg_symm {ub vb : Basis K} (hu : Fit2 ub) (hv : Fit2 vb) (q : K) (y z : Nat → K) :
    form (regItems ub vb q) (ub.size * vb.size) y z = form (regItems ub vb q) (ub.size * vb.size) z y := by
  rw [reg_form hu hv, reg_form hu hv]
  refine sum_congr rfl fun iv _ => sum_congr rfl fun iu _ => ?_
  congr 1
  rw [sum_comm]
  refine sum_congr rfl fun p _ => sum_congr rfl fun p' _ => ?_
  rw [valOuter_symm vb, valOuter_symm ub, diffOuter_symm vb, diffOuter_symm ub]
  ring

theorem qWeight_pos {j : Nat} (h : j < 4) : (0 : K) < qWeight j := by
  have : j = 0 ∨ j = 1 ∨ j = 2 ∨ j = 3 := by omega
  rcases this with rfl | rfl | rfl | rfl <;> simp [qWeight]

/-- The regularization term is never negative. -/
theorem reg_nonneg {ub vb : Basis K} (hu : Fit2 ub) (hv : Fit2 vb) (q : K) (z : Nat → K) :
    0 ≤ form (regItems ub vb q) (ub.size * vb.size) z z := by
  rw [reg_squares hu hv]
  refine sum_nonneg fun iv _ => sum_nonneg fun iu _ => mul_nonneg (by positivity) ?_
  refine sum_nonneg fun j hj => sum_nonneg fun k hk => ?_
  exact mul_nonneg (mul_pos (qWeight_pos (mem_range.1 hj)) (qWeight_pos (mem_range.1 hk))).le
    (add_nonneg (sq_nonneg _) (sq_nonneg _))

/-- Neighbouring knots of a cell: `k1 ≤ k2 < k3 ≤ k4`. -/
structure Cell (B : Basis K) (i : Nat) : Prop where
  h12 : B.k (i + 1) ≤ B.k (i + 2)
  h23 : B.k (i + 2) < B.k (i + 3)
  h34 : B.k (i + 3) ≤ B.k (i + 4)

/-- the basis functions of a cell are independent on the quadrature points -/
theorem cell_indep {B : Basis K} {i : Nat} (h : Cell B i) {q : K} (q0 : 0 < q) (q1 : q < 1 / 2) (e : Nat → K)
    (he : ∀ j < 4, ∑ a ∈ range 3, (B.evalVector2 i (qAt B q i j)).getD a 0 * e a = 0) : e 0 = 0 ∧ e 1 = 0 ∧ e 2 = 0 := by
  obtain ⟨h12, h23, h34⟩ := h
  have e0 := he 0 (by omega)
  have e1 := he 1 (by omega)
  have e3 := he 3 (by omega)
  simp only [sum_range_succ, sum_range_zero, Basis.evalVector2, qAt, qPoint, List.getD_cons_zero, List.getD_cons_succ]
    at e0 e1 e3
  generalize B.k (i + 1) = t1 at *
  generalize B.k (i + 2) = t2 at *
  generalize B.k (i + 3) = t3 at *
  generalize B.k (i + 4) = t4 at *
  have p1 : t3 - t1 ≠ 0 := by linarith
  have p2 : t3 - t2 ≠ 0 := by linarith
  have p3 : t4 - t2 ≠ 0 := by linarith
  have a0 : (t3 - t2) * e 0 = -((t2 - t1) * e 1) := by
    field_simp at e0
    have : (t4 - t2) * (t3 - t2) * ((t3 - t2) * e 0 + (t2 - t1) * e 1) = 0 := by linear_combination e0
    rcases mul_eq_zero.1 this with h | h
    · exact absurd h (mul_ne_zero p3 p2)
    · linarith
  have a2 : (t3 - t2) * e 2 = -((t4 - t3) * e 1) := by
    field_simp at e3
    have : (t3 - t1) * (t3 - t2) * ((t3 - t2) * e 2 + (t4 - t3) * e 1) = 0 := by linear_combination e3
    rcases mul_eq_zero.1 this with h | h
    · exact absurd h (mul_ne_zero p1 p2)
    · linarith
  have a1 : e 1 = 0 := by
    set s := 1 / 2 - q with hs
    have s0 : s ≠ 0 := by rw [hs]; linarith
    have s1 : 1 - s ≠ 0 := by rw [hs]; linarith
    have b0 : e 0 = -((t2 - t1) * e 1) / (t3 - t2) := by rw [← a0]; field_simp
    have b2 : e 2 = -((t4 - t3) * e 1) / (t3 - t2) := by rw [← a2]; field_simp
    rw [b0, b2] at e1
    have : 2 * (s * (1 - s)) * e 1 = 0 := by
      rw [← e1]
      field_simp
      ring
    rcases mul_eq_zero.1 this with h | h
    · exact absurd h (mul_ne_zero two_ne_zero (mul_ne_zero s0 s1))
    · exact h
  rw [a1, mul_zero, neg_zero] at a0 a2
  exact ⟨(mul_eq_zero.1 a0).resolve_left p2, a1, (mul_eq_zero.1 a2).resolve_left p2⟩

/-- the derivatives at both ends of a cell -/
theorem cell_ends {B : Basis K} {i : Nat} (h : Cell B i) (q : K) : ∃ x y, x ≠ 0 ∧ y ≠ 0 ∧
    (∀ c : Nat → K, ∑ b ∈ range 3, (B.evalDiffVector2 i (qAt B q i 0)).getD b 0 * c b = x * (c 1 - c 0)) ∧
    ∀ c : Nat → K, ∑ b ∈ range 3, (B.evalDiffVector2 i (qAt B q i 3)).getD b 0 * c b = y * (c 2 - c 1) := by
  obtain ⟨h12, h23, h34⟩ := h
  refine ⟨2 / (B.k (i + 3) - B.k (i + 1)), 2 / (B.k (i + 4) - B.k (i + 2)),
    div_ne_zero two_ne_zero (by linarith), div_ne_zero two_ne_zero (by linarith), fun c => ?_, fun c => ?_⟩
  all_goals
    simp only [sum_range_succ, sum_range_zero, Basis.evalDiffVector2, qAt, qPoint, List.getD_cons_zero, List.getD_cons_succ]
    generalize B.k (i + 1) = t1 at *
    generalize B.k (i + 2) = t2 at *
    generalize B.k (i + 3) = t3 at *
    generalize B.k (i + 4) = t4 at *
    have p1 : t3 - t1 ≠ 0 := by linarith
    have p2 : t3 - t2 ≠ 0 := by linarith
    have p3 : t4 - t2 ≠ 0 := by linarith
    field_simp
    ring

omit [LinearOrder K] [IsStrictOrderedRing K] in
theorem sum_prod_rows (x d : Nat → K) (z : Nat × Nat → K) :
    ∑ p ∈ range 3 ×ˢ range 3, x p.1 * d p.2 * z p = ∑ a ∈ range 3, x a * ∑ b ∈ range 3, d b * z (a, b) := by
  rw [sum_product]
  refine sum_congr rfl fun a _ => ?_
  rw [mul_sum]
  exact sum_congr rfl fun b _ => by ring

omit [LinearOrder K] [IsStrictOrderedRing K] in
theorem sum_prod_cols (x d : Nat → K) (z : Nat × Nat → K) :
    ∑ p ∈ range 3 ×ˢ range 3, x p.1 * d p.2 * z p = ∑ b ∈ range 3, d b * ∑ a ∈ range 3, x a * z (a, b) := by
  rw [sum_product_right]
  refine sum_congr rfl fun b _ => ?_
  rw [mul_sum]
  exact sum_congr rfl fun a _ => by ring

omit [LinearOrder K] [IsStrictOrderedRing K] in
theorem cellDu_rows (ub vb : Basis K) (q : K) (z : Nat → K) (iu iv j k : Nat) : cellDu ub vb q z iu iv j k =
    ∑ a ∈ range 3, (vb.evalVector2 iv (qAt vb q iv j)).getD a 0 *
      ∑ b ∈ range 3, (ub.evalDiffVector2 iu (qAt ub q iu k)).getD b 0 * cellPole ub.size z iu iv (a, b) :=
  sum_prod_rows (fun a => (vb.evalVector2 iv (qAt vb q iv j)).getD a 0)
    (fun b => (ub.evalDiffVector2 iu (qAt ub q iu k)).getD b 0) _

omit [LinearOrder K] [IsStrictOrderedRing K] in
theorem cellDv_cols (ub vb : Basis K) (q : K) (z : Nat → K) (iu iv j k : Nat) : cellDv ub vb q z iu iv j k =
    ∑ b ∈ range 3, (ub.evalVector2 iu (qAt ub q iu k)).getD b 0 *
      ∑ a ∈ range 3, (vb.evalDiffVector2 iv (qAt vb q iv j)).getD a 0 * cellPole ub.size z iu iv (a, b) :=
  sum_prod_cols (fun a => (vb.evalDiffVector2 iv (qAt vb q iv j)).getD a 0)
    (fun b => (ub.evalVector2 iu (qAt ub q iu k)).getD b 0) _

/-- if all derivatives are zero, the heights of a cell are equal -/
theorem cell_const {ub vb : Basis K} {iu iv : Nat} (hu : Cell ub iu) (hv : Cell vb iv) {q : K} (q0 : 0 < q)
    (q1 : q < 1 / 2) {z : Nat → K} (h : ∀ j < 4, ∀ k < 4, cellDu ub vb q z iu iv j k = 0 ∧ cellDv ub vb q z iu iv j k = 0) :
    ∀ a < 3, ∀ b < 3, cellPole ub.size z iu iv (a, b) = cellPole ub.size z iu iv (0, 0) := by
  obtain ⟨x, y, x0, y0, dx, dy⟩ := cell_ends hu q
  obtain ⟨x', y', x0', y0', dx', dy'⟩ := cell_ends hv q
  have three : ∀ {a}, a < 3 → a = 0 ∨ a = 1 ∨ a = 2 := by omega
  have key : ∀ c, c ≠ 0 → ∀ e : Nat → K, (∀ j < 4, ∑ a ∈ range 3, (vb.evalVector2 iv (qAt vb q iv j)).getD a 0 * (c * e a) = 0) →
      ∀ a < 3, e a = 0 := by
    intro c hc e he a ha
    obtain ⟨r0, r1, r2⟩ := cell_indep hv q0 q1 (fun a => c * e a) he
    rcases three ha with rfl | rfl | rfl
    · exact (mul_eq_zero.1 r0).resolve_left hc
    · exact (mul_eq_zero.1 r1).resolve_left hc
    · exact (mul_eq_zero.1 r2).resolve_left hc
  have key' : ∀ c, c ≠ 0 → ∀ e : Nat → K, (∀ j < 4, ∑ a ∈ range 3, (ub.evalVector2 iu (qAt ub q iu j)).getD a 0 * (c * e a) = 0) →
      ∀ a < 3, e a = 0 := by
    intro c hc e he a ha
    obtain ⟨r0, r1, r2⟩ := cell_indep hu q0 q1 (fun a => c * e a) he
    rcases three ha with rfl | rfl | rfl
    · exact (mul_eq_zero.1 r0).resolve_left hc
    · exact (mul_eq_zero.1 r1).resolve_left hc
    · exact (mul_eq_zero.1 r2).resolve_left hc
  have u01 := key x x0 (fun a => cellPole ub.size z iu iv (a, 1) - cellPole ub.size z iu iv (a, 0)) fun j hj => by
    have := (h j hj 0 (by omega)).1
    rw [cellDu_rows, sum_congr rfl fun a _ => by rw [dx fun x => cellPole ub.size z iu iv (a, x)]] at this
    exact this
  have u12 := key y y0 (fun a => cellPole ub.size z iu iv (a, 2) - cellPole ub.size z iu iv (a, 1)) fun j hj => by
    have := (h j hj 3 (by omega)).1
    rw [cellDu_rows, sum_congr rfl fun a _ => by rw [dy fun x => cellPole ub.size z iu iv (a, x)]] at this
    exact this
  have v01 := key' x' x0' (fun b => cellPole ub.size z iu iv (1, b) - cellPole ub.size z iu iv (0, b)) fun k hk => by
    have := (h 0 (by omega) k hk).2
    rw [cellDv_cols, sum_congr rfl fun b _ => by rw [dx' fun x => cellPole ub.size z iu iv (x, b)]] at this
    exact this
  have v12 := key' y' y0' (fun b => cellPole ub.size z iu iv (2, b) - cellPole ub.size z iu iv (1, b)) fun k hk => by
    have := (h 3 (by omega) k hk).2
    rw [cellDv_cols, sum_congr rfl fun b _ => by rw [dy' fun x => cellPole ub.size z iu iv (x, b)]] at this
    exact this
  have row : ∀ a < 3, ∀ b < 3, cellPole ub.size z iu iv (a, b) = cellPole ub.size z iu iv (a, 0) := by
    intro a ha b hb
    have h1 := u01 a ha
    have h2 := u12 a ha
    rcases three hb with rfl | rfl | rfl
    · rfl
    · linarith
    · linarith
  intro a ha b hb
  rw [row a ha b hb]
  have h1 := v01 0 (by omega)
  have h2 := v12 0 (by omega)
  rcases three ha with rfl | rfl | rfl
  · rfl
  · linarith
  · linarith

/-- A basis whose cells are not empty. -/
structure Fit2S (B : Basis K) : Prop extends Fit2 B where
  cell : ∀ i < B.nIntervals, Cell B i

/-- The regularization term is zero only for equal heights. -/
theorem reg_kernel {ub vb : Basis K} (hu : Fit2S ub) (hv : Fit2S vb) {q : K} (q0 : 0 < q) (q1 : q < 1 / 2) (z : Nat → K)
    (h : form (regItems ub vb q) (ub.size * vb.size) z z = 0) : ∀ k < ub.size * vb.size, z k = z 0 := by
  have su := hu.toFit2.size_eq
  have sv := hv.toFit2.size_eq
  have nu : 0 < ub.nIntervals := hu.valid.nInt_pos
  have nv : 0 < vb.nIntervals := hv.valid.nInt_pos
  have jac : (0 : K) < 1 / (ub.nIntervals : K) / (vb.nIntervals : K) := by
    have h1 : (0 : K) < ub.nIntervals := by exact_mod_cast nu
    have h2 : (0 : K) < vb.nIntervals := by exact_mod_cast nv
    positivity
  rw [reg_squares hu.toFit2 hv.toFit2] at h
  have pos : ∀ iu iv, ∀ j ∈ range 4, ∀ k ∈ range 4, 0 ≤ qWeight j * qWeight k *
      (cellDu ub vb q z iu iv j k ^ 2 + cellDv ub vb q z iu iv j k ^ 2) := fun iu iv j hj k hk =>
    mul_nonneg (mul_pos (qWeight_pos (mem_range.1 hj)) (qWeight_pos (mem_range.1 hk))).le
      (add_nonneg (sq_nonneg _) (sq_nonneg _))
  have cells : ∀ iv < vb.nIntervals, ∀ iu < ub.nIntervals, ∀ a < 3, ∀ b < 3,
      cellPole ub.size z iu iv (a, b) = cellPole ub.size z iu iv (0, 0) := by
    intro iv hiv iu hiu
    refine cell_const (hu.cell iu hiu) (hv.cell iv hiv) q0 q1 fun j hj k hk => ?_
    rw [sum_eq_zero_iff_of_nonneg fun iv _ => sum_nonneg fun iu _ => mul_nonneg jac.le
      (sum_nonneg fun j hj => sum_nonneg fun k hk => pos iu iv j hj k hk)] at h
    have h1 := h iv (mem_range.2 hiv)
    rw [sum_eq_zero_iff_of_nonneg fun iu _ => mul_nonneg jac.le
      (sum_nonneg fun j hj => sum_nonneg fun k hk => pos iu iv j hj k hk)] at h1
    have h2 := (mul_eq_zero.1 (h1 iu (mem_range.2 hiu))).resolve_left jac.ne'
    rw [sum_eq_zero_iff_of_nonneg fun j hj => sum_nonneg fun k hk => pos iu iv j hj k hk] at h2
    have h3 := h2 j (mem_range.2 hj)
    rw [sum_eq_zero_iff_of_nonneg fun k hk => pos iu iv j (mem_range.2 hj) k hk] at h3
    have h4 := h3 k (mem_range.2 hk)
    have h5 := (mul_eq_zero.1 h4).resolve_left (mul_pos (qWeight_pos hj) (qWeight_pos hk)).ne'
    have h6 := sq_nonneg (cellDu ub vb q z iu iv j k)
    have h7 := sq_nonneg (cellDv ub vb q z iu iv j k)
    exact ⟨pow_eq_zero_iff two_ne_zero |>.1 (by linarith), pow_eq_zero_iff two_ne_zero |>.1 (by linarith)⟩
  have right : ∀ i j, i + 1 < ub.size → j < vb.size → z (j * ub.size + (i + 1)) = z (j * ub.size + i) := by
    intro i j hi hj
    obtain ⟨iu, b, e1, e2, e3⟩ : ∃ iu b, iu < ub.nIntervals ∧ b < 2 ∧ i = iu + b :=
      ⟨min i (ub.nIntervals - 1), i - min i (ub.nIntervals - 1), by omega, by omega, by omega⟩
    obtain ⟨iv, a, f1, f2, f3⟩ : ∃ iv a, iv < vb.nIntervals ∧ a < 3 ∧ j = iv + a :=
      ⟨min j (vb.nIntervals - 1), j - min j (vb.nIntervals - 1), by omega, by omega, by omega⟩
    have g1 := cells iv f1 iu e1 a f2 b (by omega)
    have g2 := cells iv f1 iu e1 a f2 (b + 1) (by omega)
    rw [← g1] at g2
    subst e3 f3
    exact g2
  have up : ∀ j, j + 1 < vb.size → z ((j + 1) * ub.size) = z (j * ub.size) := by
    intro j hj
    obtain ⟨iv, a, f1, f2, f3⟩ : ∃ iv a, iv < vb.nIntervals ∧ a < 2 ∧ j = iv + a :=
      ⟨min j (vb.nIntervals - 1), j - min j (vb.nIntervals - 1), by omega, by omega, by omega⟩
    have g1 := cells iv f1 0 nu a (by omega) 0 (by omega)
    have g2 := cells iv f1 0 nu (a + 1) (by omega) 0 (by omega)
    rw [← g1] at g2
    subst f3
    exact g2
  have hcol : ∀ j, j < vb.size → z (j * ub.size) = z 0 := by
    intro j
    induction j with
    | zero => intro _; rw [zero_mul]
    | succ j ih => intro hj; rw [up j hj, ih (by omega)]
  have hall : ∀ j, j < vb.size → ∀ i, i < ub.size → z (j * ub.size + i) = z 0 := by
    intro j hj i
    induction i with
    | zero => intro _; rw [add_zero, hcol j hj]
    | succ i ih => intro hi; rw [right i j hi hj, ih (by omega)]
  intro k hk
  have hpos : 0 < ub.size := by omega
  have e := Nat.div_add_mod k ub.size
  rw [mul_comm] at e
  rw [← e]
  exact hall _ (Nat.div_lt_of_lt_mul hk) _ (Nat.mod_lt _ hpos)

end Verif.Approx
