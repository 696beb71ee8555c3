import Verif.Approx.Solve
import Mathlib.Analysis.SpecialFunctions.Integrals.Basic
import Mathlib.MeasureTheory.Integral.IntervalIntegral.FundThmCalculus

/-!
The regularization term of `SurfaceApprox` (src/bgem/bspline/bspline_approx.py:602-669) as an integral: with the exact
value `1 / sqrt 20` of the quadrature points, the form of the matrix is four times the integral of the squared gradient of
the surface over the unit square.
-/
namespace Verif.Approx

open Verif.Spline Finset MeasureTheory

/-- the quadrature formula on a monomial -/
theorem lobatto_pow {q : ℝ} (hq : 20 * q ^ 2 = 1) (a h : ℝ) {m : Nat} (hm : m < 5) :
    h * ∑ j ∈ range 4, qWeight j * (a + h * qPoint q j) ^ m = 2 * (((a + h) ^ (m + 1) - a ^ (m + 1)) / ((m : ℝ) + 1)) := by
  have h2 : q ^ 2 = 1 / 20 := by linarith
  have h4 : q ^ 4 = 1 / 400 := by
    have : q ^ 4 = (q ^ 2) ^ 2 := by ring
    rw [this, h2]; norm_num
  have : m = 0 ∨ m = 1 ∨ m = 2 ∨ m = 3 ∨ m = 4 := by omega
  rcases this with rfl | rfl | rfl | rfl | rfl <;>
    simp only [sum_range_succ, sum_range_zero, qWeight, qPoint, List.getD_cons_zero, List.getD_cons_succ] <;>
    push_cast <;> ring_nf <;> simp only [h2, h4] <;> ring

/-- the quadrature formula is exact for polynomials of degree 4, up to the factor 2 of its weights -/
theorem lobatto {q : ℝ} (hq : 20 * q ^ 2 = 1) (a h : ℝ) (c : Nat → ℝ) :
    h * ∑ j ∈ range 4, qWeight j * ∑ m ∈ range 5, c m * (a + h * qPoint q j) ^ m =
      2 * ∫ t in a..(a + h), ∑ m ∈ range 5, c m * t ^ m := by
  rw [intervalIntegral.integral_finsetSum fun m _ => (by fun_prop : Continuous fun t : ℝ => c m * t ^ m).intervalIntegrable _ _,
    mul_sum]
  have h1 : ∀ j ∈ range 4, h * (qWeight j * ∑ m ∈ range 5, c m * (a + h * qPoint q j) ^ m) =
      ∑ m ∈ range 5, c m * (h * (qWeight j * (a + h * qPoint q j) ^ m)) := by
    intro j _
    rw [mul_sum, mul_sum]
    exact sum_congr rfl fun m _ => by ring
  rw [sum_congr rfl h1, sum_comm, mul_sum]
  refine sum_congr rfl fun m hm => ?_
  rw [← mul_sum, ← mul_sum, lobatto_pow hq a h (mem_range.1 hm), intervalIntegral.integral_const_mul, integral_pow]
  ring

/-- the same for a product of two quadratic functions -/
theorem lobatto_mul {q : ℝ} (hq : 20 * q ^ 2 = 1) (a h : ℝ) {f g : ℝ → ℝ} (hf : ∃ x y z, ∀ t, f t = x + y * t + z * t ^ 2)
    (hg : ∃ x y z, ∀ t, g t = x + y * t + z * t ^ 2) :
    h * ∑ j ∈ range 4, qWeight j * (f (a + h * qPoint q j) * g (a + h * qPoint q j)) = 2 * ∫ t in a..(a + h), f t * g t := by
  obtain ⟨x, y, z, hf⟩ := hf
  obtain ⟨x', y', z', hg⟩ := hg
  have hfg : ∀ t, f t * g t = ∑ m ∈ range 5, [x * x', x * y' + y * x', x * z' + y * y' + z * x', y * z' + z * y',
      z * z'].getD m 0 * t ^ m := by
    intro t
    rw [hf, hg]
    simp only [sum_range_succ, sum_range_zero, List.getD_cons_zero, List.getD_cons_succ]
    ring
  simp only [hfg]
  exact lobatto hq a h _

/-- the integral over all cells -/
theorem split_cells (a : Nat → ℝ) {n : Nat} (ha : ∀ k < n, a k ≤ a (k + 1)) (f : ℝ → ℝ) (g : Nat → ℝ → ℝ)
    (hg : ∀ k < n, Continuous (g k)) (h : ∀ k < n, ∀ t, a k < t → t < a (k + 1) → f t = g k t) :
    ∫ t in (a 0)..(a n), f t = ∑ k ∈ range n, ∫ t in (a k)..(a (k + 1)), g k t := by
  have he : ∀ k < n, Set.EqOn (g k) f (Set.uIoo (a k) (a (k + 1))) := by
    intro k hk t ht
    rw [Set.uIoo_of_le (ha k hk)] at ht
    exact (h k hk t ht.1 ht.2).symm
  rw [← intervalIntegral.sum_integral_adjacent_intervals fun k hk =>
    ((hg k hk).intervalIntegrable _ _).congr_uIoo (he k hk)]
  refine sum_congr rfl fun k hk => ?_
  exact (intervalIntegral.integral_congr_uIoo (he k (mem_range.1 hk))).symm

/-- the basis functions of a cell as polynomials -/
noncomputable def P (B : Basis ℝ) (i a : Nat) (t : ℝ) : ℝ := (B.evalVector2 i t).getD a 0

/-- their derivatives -/
noncomputable def D (B : Basis ℝ) (i a : Nat) (t : ℝ) : ℝ := (B.evalDiffVector2 i t).getD a 0

theorem P_quadratic (B : Basis ℝ) (i a : Nat) : ∃ x y z, ∀ t, P B i a t = x + y * t + z * t ^ 2 := by
  unfold P Basis.evalVector2
  generalize B.k (i + 1) = t1
  generalize B.k (i + 2) = t2
  generalize B.k (i + 3) = t3
  generalize B.k (i + 4) = t4
  match a with
  | 0 => exact ⟨t3 * t3 / ((t3 - t1) * (t3 - t2)), -2 * t3 / ((t3 - t1) * (t3 - t2)), 1 / ((t3 - t1) * (t3 - t2)),
      fun t => by simp only [List.getD_cons_zero]; ring⟩
  | 1 => exact ⟨-t1 * t3 / ((t3 - t1) * (t3 - t2)) - t2 * t4 / ((t4 - t2) * (t3 - t2)),
      (t1 + t3) / ((t3 - t1) * (t3 - t2)) + (t2 + t4) / ((t4 - t2) * (t3 - t2)),
      -1 / ((t3 - t1) * (t3 - t2)) - 1 / ((t4 - t2) * (t3 - t2)),
      fun t => by simp only [List.getD_cons_zero, List.getD_cons_succ]; ring⟩
  | 2 => exact ⟨t2 * t2 / ((t4 - t2) * (t3 - t2)), -2 * t2 / ((t4 - t2) * (t3 - t2)), 1 / ((t4 - t2) * (t3 - t2)),
      fun t => by simp only [List.getD_cons_zero, List.getD_cons_succ]; ring⟩
  | a + 3 => exact ⟨0, 0, 0, fun t => by simp⟩

theorem D_quadratic (B : Basis ℝ) (i a : Nat) : ∃ x y z, ∀ t, D B i a t = x + y * t + z * t ^ 2 := by
  unfold D Basis.evalDiffVector2
  generalize B.k (i + 1) = t1
  generalize B.k (i + 2) = t2
  generalize B.k (i + 3) = t3
  generalize B.k (i + 4) = t4
  match a with
  | 0 => exact ⟨-2 * t3 / ((t3 - t1) * (t3 - t2)), 2 / ((t3 - t1) * (t3 - t2)), 0,
      fun t => by simp only [List.getD_cons_zero]; ring⟩
  | 1 => exact ⟨(t3 + t1) / ((t3 - t1) * (t3 - t2)) + (t4 + t2) / ((t4 - t2) * (t3 - t2)),
      -2 / ((t3 - t1) * (t3 - t2)) - 2 / ((t4 - t2) * (t3 - t2)), 0,
      fun t => by simp only [List.getD_cons_zero, List.getD_cons_succ]; ring⟩
  | 2 => exact ⟨-2 * t2 / ((t4 - t2) * (t3 - t2)), 2 / ((t4 - t2) * (t3 - t2)), 0,
      fun t => by simp only [List.getD_cons_zero, List.getD_cons_succ]; ring⟩
  | a + 3 => exact ⟨0, 0, 0, fun t => by simp⟩

theorem quad_cont {f : ℝ → ℝ} (h : ∃ x y z, ∀ t, f t = x + y * t + z * t ^ 2) : Continuous f := by
  obtain ⟨x, y, z, h⟩ := h
  rw [funext h]
  fun_prop

theorem P_cont (B : Basis ℝ) (i a : Nat) : Continuous (P B i a) := quad_cont (P_quadratic B i a)

theorem D_cont (B : Basis ℝ) (i a : Nat) : Continuous (D B i a) := quad_cont (D_quadratic B i a)

theorem P_deriv (B : Basis ℝ) (i a : Nat) (t : ℝ) : HasDerivAt (P B i a) (D B i a t) t := by
  have key : ∀ x y c : ℝ, HasDerivAt (fun s => (s - x) * (y - s) / c) (((y - t) - (t - x)) / c) t := by
    intro x y c
    have h1 : HasDerivAt (fun s => (s - x) * (y - s)) (1 * (y - t) + (t - x) * (0 - 1)) t :=
      ((hasDerivAt_id t).sub_const x).mul ((hasDerivAt_const t y).sub (hasDerivAt_id t))
    exact (h1.div_const c).congr_deriv (by ring)
  have key2 : ∀ x c : ℝ, HasDerivAt (fun s => (s - x) * (s - x) / c) (2 * (t - x) / c) t := by
    intro x c
    have h1 : HasDerivAt (fun s => (s - x) * (s - x)) (1 * (t - x) + (t - x) * 1) t :=
      ((hasDerivAt_id t).sub_const x).mul ((hasDerivAt_id t).sub_const x)
    exact (h1.div_const c).congr_deriv (by ring)
  match a with
  | 0 =>
    have h := key2 (B.k (i + 3)) ((B.k (i + 3) - B.k (i + 1)) * (B.k (i + 3) - B.k (i + 2)))
    have e : P B i 0 = fun s => (s - B.k (i + 3)) * (s - B.k (i + 3)) /
        ((B.k (i + 3) - B.k (i + 1)) * (B.k (i + 3) - B.k (i + 2))) := by
      funext s; simp only [P, Basis.evalVector2, List.getD_cons_zero]; ring
    rw [e]
    convert h using 1
    simp only [D, Basis.evalDiffVector2, List.getD_cons_zero]; ring
  | 1 =>
    have h := (key (B.k (i + 1)) (B.k (i + 3)) ((B.k (i + 3) - B.k (i + 1)) * (B.k (i + 3) - B.k (i + 2)))).add
      (key (B.k (i + 2)) (B.k (i + 4)) ((B.k (i + 4) - B.k (i + 2)) * (B.k (i + 3) - B.k (i + 2))))
    exact h
  | 2 => exact key2 (B.k (i + 2)) ((B.k (i + 4) - B.k (i + 2)) * (B.k (i + 3) - B.k (i + 2)))
  | a + 3 =>
    have e1 : P B i (a + 3) = fun _ => 0 := by funext s; simp [P, Basis.evalVector2]
    have e2 : D B i (a + 3) t = 0 := by simp [D, Basis.evalDiffVector2]
    rw [e1, e2]
    exact hasDerivAt_const t 0

/-! ### The equidistant bases -/

/-- what is known of a basis of `compute_approximation` -/
structure Equi (n : Nat) (B : Basis ℝ) : Prop where
  pos : 0 < n
  fit : Fit2 B
  int : B.nIntervals = n
  hi : B.hi = 1
  dom : ∀ t, B.Dom t ↔ 0 ≤ t ∧ t ≤ 1
  knot : ∀ i ≤ n, B.k (i + 2) = (i : ℝ) * (1 / n)

theorem equi_ok {n : Nat} (hn : 0 < n) {B : Basis ℝ} (e : Basis.equidistant 2 n (0 : ℝ) 1 = .ok B) : Equi n B := by
  obtain ⟨B', e', hf, hs, hni, hd, hk⟩ := equidistant_fit (K := ℝ) hn
  obtain ⟨B'', e'', hv, hd', hl, hs', hni', hlo, hhi, hk'⟩ := equidistant_valid 2 n (0 : ℝ) 1 hn one_pos
  rw [e] at e' e''
  cases e'
  cases e''
  exact ⟨hn, hf, hni, hhi, hd, fun i hi => by rw [add_comm]; exact hk i hi⟩

namespace Equi

variable {n : Nat} {B : Basis ℝ} (h : Equi n B)
include h

theorem step {k : Nat} (hk : k < n) : B.k (k + 2) + 1 / n = B.k (k + 1 + 2) := by
  rw [h.knot k (by omega), h.knot (k + 1) (by omega)]
  push_cast
  ring

theorem mono {k : Nat} (hk : k < n) : B.k (k + 2) ≤ B.k (k + 1 + 2) := by
  rw [← h.step hk]
  have : (0 : ℝ) ≤ 1 / n := by positivity
  linarith

theorem cell_dom {i : Nat} (hi : i < n) {t : ℝ} (h1 : B.k (i + 2) < t) (h2 : t < B.k (i + 1 + 2)) : 0 < t ∧ t < 1 := by
  have hp : (0 : ℝ) < n := by exact_mod_cast h.pos
  rw [h.knot i (by omega)] at h1
  rw [h.knot (i + 1) (by omega)] at h2
  have e1 : (0 : ℝ) ≤ i * (1 / n) := by positivity
  have e2 : ((i + 1 : Nat) : ℝ) * (1 / n) ≤ 1 := by
    rw [mul_one_div, div_le_one hp]
    exact_mod_cast hi
  exact ⟨by linarith, by linarith⟩

/-- inside of a cell its number is found -/
theorem find_cell {i : Nat} (hi : i < n) {t : ℝ} (h1 : B.k (i + 2) < t) (h2 : t < B.k (i + 1 + 2)) :
    B.findInterval t = .ok i := by
  obtain ⟨t0, t1⟩ := h.cell_dom hi h1 h2
  obtain ⟨r, hf, hr, a1, a2, _⟩ := h.fit.valid.find ((h.dom t).2 ⟨t0.le, t1.le⟩)
  have a2 := a2 (by rw [h.hi]; exact t1)
  have hl := h.fit.valid.len
  have hni := h.int
  have hd := h.fit.deg
  unfold Basis.nIntervals Basis.size at hni
  rw [hd] at a1 a2 hni
  rw [h.int] at hr
  rw [kx_eq B (by omega)] at a1
  rw [show r + 2 + 1 = r + 1 + 2 by omega, kx_eq B (by omega), h.knot (r + 1) (by omega)] at a2
  rw [h.knot r (by omega)] at a1
  rw [h.knot i (by omega)] at h1
  rw [h.knot (i + 1) (by omega)] at h2
  have hp : (0 : ℝ) < 1 / n := by have : (0 : ℝ) < n := by exact_mod_cast h.pos
                                  positivity
  have c1 : (r : ℝ) < ((i + 1 : Nat) : ℝ) := lt_of_mul_lt_mul_right (a1.trans_lt h2) hp.le
  have c2 : (i : ℝ) < ((r + 1 : Nat) : ℝ) := lt_of_mul_lt_mul_right (h1.trans a2) hp.le
  have c1 : r < i + 1 := by exact_mod_cast c1
  have c2 : i < r + 1 := by exact_mod_cast c2
  rw [hf, show r = i by omega]

/-- `point_val_outer` as an integral over the cell -/
theorem val_outer {q : ℝ} (hq : 20 * q ^ 2 = 1) {i : Nat} (hi : i < n) (a b : Nat) :
    1 / (n : ℝ) * valOuter B q i a b = 2 * ∫ t in (B.k (i + 2))..(B.k (i + 1 + 2)), P B i a t * P B i b t := by
  have hs := h.step hi
  have := lobatto_mul hq (B.k (i + 2)) (1 / n) (P_quadratic B i a) (P_quadratic B i b)
  rw [hs] at this
  rw [← this]
  have e : ∀ j, qAt B q i j = B.k (i + 2) + 1 / n * qPoint q j := by
    intro j
    unfold qAt
    rw [show i + 3 = i + 1 + 2 by omega, ← hs]
    ring
  unfold valOuter P
  simp only [e]

/-- `d_point_val_outer` as an integral over the cell -/
theorem diff_outer {q : ℝ} (hq : 20 * q ^ 2 = 1) {i : Nat} (hi : i < n) (a b : Nat) :
    1 / (n : ℝ) * diffOuter B q i a b = 2 * ∫ t in (B.k (i + 2))..(B.k (i + 1 + 2)), D B i a t * D B i b t := by
  have hs := h.step hi
  have := lobatto_mul hq (B.k (i + 2)) (1 / n) (D_quadratic B i a) (D_quadratic B i b)
  rw [hs] at this
  rw [← this]
  have e : ∀ j, qAt B q i j = B.k (i + 2) + 1 / n * qPoint q j := by
    intro j
    unfold qAt
    rw [show i + 3 = i + 1 + 2 by omega, ← hs]
    ring
  unfold diffOuter D
  simp only [e]

end Equi

/-- the surface inside of a cell -/
theorem cell_value {nu nv : Nat} {ub vb : Basis ℝ} (hu : Equi nu ub) (hv : Equi nv vb) {z : Nat → ℝ} {S : Surface ℝ}
    (hS : fitSurface ub vb z = .ok S) {c4 rtol : ℝ} {x : ℝ} {iu iv : Nat} (hiu : iu < nu) (hiv : iv < nv)
    {u v : ℝ} (u1 : ub.k (iu + 2) < u) (u2 : u < ub.k (iu + 1 + 2)) (v1 : vb.k (iv + 2) < v) (v2 : v < vb.k (iv + 1 + 2))
    (hx : S.eval c4 rtol u v = .ok [some x]) :
    x = ∑ p ∈ range 3 ×ˢ range 3, P vb iv p.1 v * P ub iu p.2 u * cellPole ub.size z iu iv p := by
  obtain ⟨S', s1, s2, s3, s4, s5, s6⟩ := fitSurface_ok hu.fit.valid hv.fit.valid z
  rw [hS] at s1
  cases s1
  have du := (hu.dom u).2 ⟨(hu.cell_dom hiu u1 u2).1.le, (hu.cell_dom hiu u1 u2).2.le⟩
  have dv := (hv.dom v).2 ⟨(hv.cell_dom hiv v1 v2).1.le, (hv.cell_dom hiv v1 v2).2.le⟩
  obtain ⟨ru, f1, l1, w1⟩ := window2 hu.fit.valid hu.fit.deg hu.fit.last du
  obtain ⟨rv, f2, l2, w2⟩ := window2 hv.fit.valid hv.fit.deg hv.fit.last dv
  rw [hu.find_cell hiu u1 u2] at f1
  rw [hv.find_cell hiv v1 v2] at f2
  cases f1
  cases f2
  obtain ⟨ru', rv', f1', f2', _, _, _, _, hev⟩ := Surface.eval_eq (S := S) (by rw [s2]; exact hu.fit.valid)
    (by rw [s3]; exact hv.fit.valid) s4 (by rw [s2]; exact du) (by rw [s3]; exact dv) c4 rtol
  rw [s2, hu.find_cell hiu u1 u2] at f1'
  rw [s3, hv.find_cell hiv v1 v2] at f2'
  cases f1'
  cases f2'
  rw [hx, s5, s2, s3, hu.fit.deg, hv.fit.deg] at hev
  simp only [List.range_succ, List.range_zero, List.nil_append, List.map_cons, List.map_nil, Except.ok.injEq,
    List.cons.injEq, and_true, Option.some.injEq] at hev
  rw [hev, sum_product]
  refine sum_congr rfl fun n hn => ?_
  rw [mul_sum]
  refine sum_congr rfl fun m hm => ?_
  have := mem_range.1 hn
  have := mem_range.1 hm
  rw [s6 _ (by omega) _ (by omega), cellPole, P, P, w1 _ (by omega), w2 _ (by omega)]
  ring

/-- the integral of a squared sum of products -/
theorem integral_sq (a b : ℝ) (y : Nat → ℝ) (f : Nat → ℝ → ℝ) (hf : ∀ i, Continuous (f i)) (z : Nat × Nat → ℝ) :
    ∫ t in a..b, (∑ p ∈ range 3 ×ˢ range 3, y p.1 * f p.2 t * z p) ^ 2 =
      ∑ p ∈ range 3 ×ˢ range 3, ∑ p' ∈ range 3 ×ˢ range 3, y p.1 * y p'.1 * (∫ t in a..b, f p.2 t * f p'.2 t) * (z p * z p') := by
  have e : ∀ t, (∑ p ∈ range 3 ×ˢ range 3, y p.1 * f p.2 t * z p) ^ 2 =
      ∑ p ∈ range 3 ×ˢ range 3, ∑ p' ∈ range 3 ×ˢ range 3, (y p.1 * y p'.1 * (z p * z p')) * (f p.2 t * f p'.2 t) := by
    intro t
    rw [sq, sum_mul_sum]
    exact sum_congr rfl fun p _ => sum_congr rfl fun p' _ => by ring
  simp only [e]
  have hc : ∀ p p' : Nat × Nat, Continuous fun t => (y p.1 * y p'.1 * (z p * z p')) * (f p.2 t * f p'.2 t) := fun p p' =>
    continuous_const.mul ((hf _).mul (hf _))
  rw [intervalIntegral.integral_finsetSum fun p _ => (continuous_finsetSum _ fun p' _ => hc p p').intervalIntegrable _ _]
  refine sum_congr rfl fun p _ => ?_
  rw [intervalIntegral.integral_finsetSum fun p' _ => (hc p p').intervalIntegrable _ _]
  refine sum_congr rfl fun p' _ => ?_
  rw [intervalIntegral.integral_const_mul]
  ring

/-- the derivatives of the surface inside of a cell -/
theorem cell_deriv {nu nv : Nat} {ub vb : Basis ℝ} (hu : Equi nu ub) (hv : Equi nv vb) {z : Nat → ℝ} {S : Surface ℝ}
    (hS : fitSurface ub vb z = .ok S) {c4 rtol : ℝ} {V : ℝ → ℝ → ℝ}
    (hV : ∀ u v, 0 ≤ u → u ≤ 1 → 0 ≤ v → v ≤ 1 → S.eval c4 rtol u v = .ok [some (V u v)])
    {iu iv : Nat} (hiu : iu < nu) (hiv : iv < nv)
    {u v : ℝ} (u1 : ub.k (iu + 2) < u) (u2 : u < ub.k (iu + 1 + 2)) (v1 : vb.k (iv + 2) < v) (v2 : v < vb.k (iv + 1 + 2)) :
    deriv (fun s => V s v) u = (∑ p ∈ range 3 ×ˢ range 3, P vb iv p.1 v * D ub iu p.2 u * cellPole ub.size z iu iv p) ∧
    deriv (fun s => V u s) v = ∑ p ∈ range 3 ×ˢ range 3, D vb iv p.1 v * P ub iu p.2 u * cellPole ub.size z iu iv p := by
  have hval : ∀ s t, ub.k (iu + 2) < s → s < ub.k (iu + 1 + 2) → vb.k (iv + 2) < t → t < vb.k (iv + 1 + 2) →
      V s t = ∑ p ∈ range 3 ×ˢ range 3, P vb iv p.1 t * P ub iu p.2 s * cellPole ub.size z iu iv p := by
    intro s t s1 s2 t1 t2
    obtain ⟨a1, a2⟩ := hu.cell_dom hiu s1 s2
    obtain ⟨b1, b2⟩ := hv.cell_dom hiv t1 t2
    exact cell_value hu hv hS hiu hiv s1 s2 t1 t2 (hV s t a1.le a2.le b1.le b2.le)
  constructor
  · have he : (fun s => V s v) =ᶠ[nhds u]
        fun s => ∑ p ∈ range 3 ×ˢ range 3, P vb iv p.1 v * P ub iu p.2 s * cellPole ub.size z iu iv p := by
      filter_upwards [Ioo_mem_nhds u1 u2] with s hs
      exact hval s v hs.1 hs.2 v1 v2
    rw [he.deriv_eq]
    exact (HasDerivAt.fun_sum fun p _ => ((P_deriv ub iu p.2 u).const_mul (P vb iv p.1 v)).mul_const _).deriv
  · have he : (fun s => V u s) =ᶠ[nhds v]
        fun s => ∑ p ∈ range 3 ×ˢ range 3, P vb iv p.1 s * P ub iu p.2 u * cellPole ub.size z iu iv p := by
      filter_upwards [Ioo_mem_nhds v1 v2] with s hs
      exact hval u s u1 u2 hs.1 hs.2
    rw [he.deriv_eq]
    exact (HasDerivAt.fun_sum fun p _ => ((P_deriv vb iv p.1 v).mul_const (P ub iu p.2 u)).mul_const _).deriv

/-- C103. Let `V` be the surface made of the heights `z` on the bases of the fit. The value of the regularization term at `z`
is four times the integral over the unit square of the square of the gradient of `V`. -/
theorem reg_energy {nu nv : Nat} (hnu : 0 < nu) (hnv : 0 < nv) {ub vb : Basis ℝ}
    (hub : Basis.equidistant 2 nu (0 : ℝ) 1 = .ok ub) (hvb : Basis.equidistant 2 nv (0 : ℝ) 1 = .ok vb) (z : Nat → ℝ)
    {S : Surface ℝ} (hS : fitSurface ub vb z = .ok S) {c4 rtol : ℝ} {V : ℝ → ℝ → ℝ}
    (hV : ∀ u v, 0 ≤ u → u ≤ 1 → 0 ≤ v → v ≤ 1 → S.eval c4 rtol u v = .ok [some (V u v)]) :
    form (regItems ub vb (1 / Real.sqrt 20)) (ub.size * vb.size) z z =
      4 * ∫ v in (0 : ℝ)..1, ∫ u in (0 : ℝ)..1, (deriv (fun s => V s v) u ^ 2 + deriv (fun s => V u s) v ^ 2) := by
  have hu := equi_ok hnu hub
  have hv := equi_ok hnv hvb
  have hq : 20 * (1 / Real.sqrt 20) ^ 2 = 1 := by
    rw [div_pow, Real.sq_sqrt (by norm_num)]; norm_num
  generalize 1 / Real.sqrt 20 = q at hq
  have a0 : ∀ {n B}, Equi n B → B.k (0 + 2) = 0 := fun h => by rw [h.knot 0 (by omega)]; simp
  have a1 : ∀ {n B}, Equi n B → B.k (n + 2) = 1 := fun {n B} h => by
    have : (n : ℝ) ≠ 0 := by exact_mod_cast h.pos.ne'
    rw [h.knot n le_rfl, mul_one_div, div_self this]
  -- the inner integral
  have inner : ∀ iv < nv, ∀ v, vb.k (iv + 2) < v → v < vb.k (iv + 1 + 2) →
      (∫ u in (0 : ℝ)..1, (deriv (fun s => V s v) u ^ 2 + deriv (fun s => V u s) v ^ 2)) =
      ∑ iu ∈ range nu, ∑ p ∈ range 3 ×ˢ range 3, ∑ p' ∈ range 3 ×ˢ range 3,
        (P vb iv p.1 v * P vb iv p'.1 v * (∫ t in (ub.k (iu + 2))..(ub.k (iu + 1 + 2)), D ub iu p.2 t * D ub iu p'.2 t) +
         D vb iv p.1 v * D vb iv p'.1 v * (∫ t in (ub.k (iu + 2))..(ub.k (iu + 1 + 2)), P ub iu p.2 t * P ub iu p'.2 t)) *
          (cellPole ub.size z iu iv p * cellPole ub.size z iu iv p') := by
    intro iv hiv v v1 v2
    have hcD : ∀ iu, Continuous fun u => (∑ p ∈ range 3 ×ˢ range 3, P vb iv p.1 v * D ub iu p.2 u * cellPole ub.size z iu iv p) ^ 2 :=
      fun iu => (continuous_finsetSum _ fun p _ => (continuous_const.mul (D_cont ub iu p.2)).mul continuous_const).pow 2
    have hcP : ∀ iu, Continuous fun u => (∑ p ∈ range 3 ×ˢ range 3, D vb iv p.1 v * P ub iu p.2 u * cellPole ub.size z iu iv p) ^ 2 :=
      fun iu => (continuous_finsetSum _ fun p _ => (continuous_const.mul (P_cont ub iu p.2)).mul continuous_const).pow 2
    have h1 := split_cells (fun k => ub.k (k + 2)) (n := nu) (fun k hk => hu.mono hk)
      (fun u => deriv (fun s => V s v) u ^ 2 + deriv (fun s => V u s) v ^ 2)
      (fun iu u => (∑ p ∈ range 3 ×ˢ range 3, P vb iv p.1 v * D ub iu p.2 u * cellPole ub.size z iu iv p) ^ 2 +
        (∑ p ∈ range 3 ×ˢ range 3, D vb iv p.1 v * P ub iu p.2 u * cellPole ub.size z iu iv p) ^ 2)
      (fun iu _ => (hcD iu).add (hcP iu)) (fun iu hiu u u1 u2 => by
        obtain ⟨d1, d2⟩ := cell_deriv hu hv hS hV hiu hiv u1 u2 v1 v2
        rw [d1, d2])
    simp only [a0 hu, a1 hu] at h1
    rw [h1]
    refine sum_congr rfl fun iu _ => ?_
    rw [intervalIntegral.integral_add ((hcD iu).intervalIntegrable _ _) ((hcP iu).intervalIntegrable _ _),
      integral_sq _ _ (fun i => P vb iv i v) (fun i => D ub iu i) (fun i => D_cont ub iu i),
      integral_sq _ _ (fun i => D vb iv i v) (fun i => P ub iu i) (fun i => P_cont ub iu i), ← sum_add_distrib]
    refine sum_congr rfl fun p _ => ?_
    rw [← sum_add_distrib]
    exact sum_congr rfl fun p' _ => by ring
  have h2 := split_cells (fun k => vb.k (k + 2)) (n := nv) (fun k hk => hv.mono hk)
    (fun v => ∫ u in (0 : ℝ)..1, (deriv (fun s => V s v) u ^ 2 + deriv (fun s => V u s) v ^ 2))
    (fun iv v => ∑ iu ∈ range nu, ∑ p ∈ range 3 ×ˢ range 3, ∑ p' ∈ range 3 ×ˢ range 3,
        (P vb iv p.1 v * P vb iv p'.1 v * (∫ t in (ub.k (iu + 2))..(ub.k (iu + 1 + 2)), D ub iu p.2 t * D ub iu p'.2 t) +
         D vb iv p.1 v * D vb iv p'.1 v * (∫ t in (ub.k (iu + 2))..(ub.k (iu + 1 + 2)), P ub iu p.2 t * P ub iu p'.2 t)) *
          (cellPole ub.size z iu iv p * cellPole ub.size z iu iv p'))
    (fun iv _ => continuous_finsetSum _ fun iu _ => continuous_finsetSum _ fun p _ => continuous_finsetSum _ fun p' _ =>
      ((((P_cont vb iv p.1).mul (P_cont vb iv p'.1)).mul continuous_const).add
        (((D_cont vb iv p.1).mul (D_cont vb iv p'.1)).mul continuous_const)).mul continuous_const) inner
  simp only [a0 hv, a1 hv] at h2
  rw [h2, reg_form hu.fit hv.fit, hu.int, hv.int, mul_sum]
  refine sum_congr rfl fun iv hiv => ?_
  have hiv := mem_range.1 hiv
  have hcc : ∀ (iu : Nat) (p p' : Nat × Nat), Continuous fun v =>
      (P vb iv p.1 v * P vb iv p'.1 v * (∫ t in (ub.k (iu + 2))..(ub.k (iu + 1 + 2)), D ub iu p.2 t * D ub iu p'.2 t) +
         D vb iv p.1 v * D vb iv p'.1 v * (∫ t in (ub.k (iu + 2))..(ub.k (iu + 1 + 2)), P ub iu p.2 t * P ub iu p'.2 t)) *
          (cellPole ub.size z iu iv p * cellPole ub.size z iu iv p') := fun iu p p' =>
    ((((P_cont vb iv p.1).mul (P_cont vb iv p'.1)).mul continuous_const).add
        (((D_cont vb iv p.1).mul (D_cont vb iv p'.1)).mul continuous_const)).mul continuous_const
  rw [intervalIntegral.integral_finsetSum fun iu _ => (continuous_finsetSum _ fun p _ => continuous_finsetSum _ fun p' _ =>
    hcc iu p p').intervalIntegrable _ _, mul_sum]
  refine sum_congr rfl fun iu hiu => ?_
  have hiu := mem_range.1 hiu
  rw [intervalIntegral.integral_finsetSum fun p _ => (continuous_finsetSum _ fun p' _ =>
    hcc iu p p').intervalIntegrable _ _, mul_sum, mul_sum]
  refine sum_congr rfl fun p _ => ?_
  rw [intervalIntegral.integral_finsetSum fun p' _ => (hcc iu p p').intervalIntegrable _ _, mul_sum, mul_sum]
  refine sum_congr rfl fun p' _ => ?_
  rw [intervalIntegral.integral_mul_const, intervalIntegral.integral_add, intervalIntegral.integral_mul_const,
    intervalIntegral.integral_mul_const]
  · have e1 := hv.val_outer hq hiv p.1 p'.1
    have e2 := hv.diff_outer hq hiv p.1 p'.1
    have e3 := hu.val_outer hq hiu p.2 p'.2
    have e4 := hu.diff_outer hq hiu p.2 p'.2
    have : 1 / (nu : ℝ) / nv * ((valOuter vb q iv p.1 p'.1 * diffOuter ub q iu p.2 p'.2 +
        diffOuter vb q iv p.1 p'.1 * valOuter ub q iu p.2 p'.2) * (cellPole ub.size z iu iv p * cellPole ub.size z iu iv p')) =
        ((1 / (nv : ℝ) * valOuter vb q iv p.1 p'.1) * (1 / (nu : ℝ) * diffOuter ub q iu p.2 p'.2) +
        (1 / (nv : ℝ) * diffOuter vb q iv p.1 p'.1) * (1 / (nu : ℝ) * valOuter ub q iu p.2 p'.2)) *
          (cellPole ub.size z iu iv p * cellPole ub.size z iu iv p') := by ring
    rw [this, e1, e2, e3, e4]
    ring
  · exact (((P_cont vb iv p.1).mul (P_cont vb iv p'.1)).mul continuous_const).intervalIntegrable _ _
  · exact (((D_cont vb iv p.1).mul (D_cont vb iv p'.1)).mul continuous_const).intervalIntegrable _ _

end Verif.Approx
