import Verif.Isec.Newton
import Verif.Spline.Deriv
import Mathlib.Analysis.Calculus.Deriv.Add
import Mathlib.Analysis.Calculus.Deriv.Mul
/-! The Jacobian of `_compute_jacobian_and_coordinates` is the derivative, and the Newton loop solves affine problems
(C110). -/
namespace Verif.Isec
open Verif.Spline Finset

set_option linter.unusedSectionVars false

section
variable {K : Type} [Field K] [LinearOrder K] [IsStrictOrderedRing K]

/-- determinant of a matrix of three rows -/
def det3 (J : Fin 3 → Fin 3 → K) : K :=
  J 0 0 * (J 1 1 * J 2 2 - J 1 2 * J 2 1) - J 0 1 * (J 1 0 * J 2 2 - J 1 2 * J 2 0) +
    J 0 2 * (J 1 0 * J 2 1 - J 1 1 * J 2 0)

/-- `numpy.linalg.solve` in exact arithmetic: LinAlgError for a singular matrix, otherwise the solution (Cramer). -/
def solve3 : Solver K := fun J d =>
  if det3 J = 0 then .error .linAlgError
  else .ok fun i => det3 (fun r c => if c = i then d r else J r c) / det3 J

/-- product of matrix and vector -/
def mul3 (J : Fin 3 → Fin 3 → K) (x : V3 K) : V3 K := fun r => J r 0 * x 0 + J r 1 * x 1 + J r 2 * x 2

/-- `solve3` does what the library promises: the result solves the system, and it is the only solution. -/
theorem solve3_spec (J : Fin 3 → Fin 3 → K) (d : V3 K) : (solve3 J d = .error .linAlgError ↔ det3 J = 0) ∧
    (∀ s, solve3 J d = .ok s → mul3 J s = d) ∧ (det3 J ≠ 0 → ∀ s, mul3 J s = d → solve3 J d = .ok s) := by
  unfold solve3
  refine ⟨?_, ?_, ?_⟩
  · split <;> simp [*]
  · intro s h
    split at h
    · simp at h
    · rename_i hd
      cases h
      funext r
      unfold mul3
      have e : ∀ a b c D : K, D ≠ 0 → ∀ x y z, x * (a / D) + y * (b / D) + z * (c / D) = (x * a + y * b + z * c) / D := by
        intro a b c D _ x y z
        ring
      rw [e _ _ _ _ hd, div_eq_iff hd]
      fin_cases r <;> simp [det3] <;> ring
  · intro hd s h
    rw [if_neg hd]
    congr 1
    funext i
    rw [div_eq_iff hd]
    subst h
    fin_cases i <;> simp [det3, mul3] <;> ring

end

/-- Strictly inside a knot interval `eval_diff_vector` returns the derivatives of the functions of the window. -/
theorem evalDiffVec_deriv {B : Basis ℝ} (hB : B.Valid) (hd : 0 < B.degree) (hI : Inner B) {r : Nat} (hr : r < B.nIntervals)
    {t : ℝ} (h1 : B.k (r + B.degree) < t) (h2 : t < B.k (r + B.degree + 1)) :
    ∃ D : Nat → ℝ, B.evalDiffVector r t = .ok (((List.range (B.degree + 1)).map D).map some) ∧
      ∀ j, j < B.degree + 1 → HasDerivAt (fun s => B.val (r + j) s) (D j) t := by
  have hse := hB.size_eq
  have hie := hB.nInt_eq
  have hdom := dom_of_interval hB hr h1.le h2.le
  have hhi : t < B.hi := by
    refine lt_of_lt_of_le h2 ?_
    rw [← kx_eq B (by omega)]
    exact hB.kx_le_hi _
  have hq : ∀ q ∈ B.knots, q ≠ t := by
    intro q hq
    obtain ⟨i, hi, rfl⟩ := List.getElem_of_mem hq
    have e : B.knots[i] = B.k i := by
      unfold Basis.k
      rw [List.getD_eq_getElem?_getD, List.getElem?_eq_getElem hi]
      rfl
    rw [e]
    rcases Nat.lt_or_ge (r + B.degree) i with h | h
    · exact (lt_of_lt_of_le h2 (k_mono B hB.sorted h hi)).ne'
    · exact (lt_of_le_of_lt (k_mono B hB.sorted h (by omega)) h1).ne
  have key : ∀ j, ∃ D, j < B.degree + 1 → B.evalDiff (r + j) t = .ok (some D) ∧ HasDerivAt (fun s => B.val (r + j) s) D t := by
    intro j
    by_cases hj : j < B.degree + 1
    · obtain ⟨D, e, _, hD⟩ := eval_diff_is_derivative B hB hd hI (r + j) (by omega) t hdom.1 hhi
      refine ⟨D, fun _ => ⟨e, ?_⟩⟩
      have hv : B.value (r + j) = fun s => B.val (r + j) s := funext fun s => hB.value_eq (by omega) s
      rw [← hv]
      exact hD hq
    · exact ⟨0, fun h => absurd h hj⟩
  choose D hD using key
  refine ⟨D, ?_, fun j hj => (hD j hj).2⟩
  have := mapM_ok (fun j => B.evalDiff (r + j) t) (fun j => some (D j)) (List.range (B.degree + 1))
    (fun j hj => (hD j (List.mem_range.1 hj)).1)
  unfold Basis.evalDiffVector
  rw [this, List.map_map]
  rfl

/-- The point is strictly inside the cell. -/
def InsideCell (S : Surface ℝ) (C : Curve ℝ) (iu iv it : Nat) (p : V3 ℝ) : Prop :=
  (S.ub.k (iu + 2) < p 0 ∧ p 0 < S.ub.k (iu + 3)) ∧ (S.vb.k (iv + 2) < p 1 ∧ p 1 < S.vb.k (iv + 3)) ∧
    (C.basis.k (it + 2) < p 2 ∧ p 2 < C.basis.k (it + 3))

theorem InsideCell.inCell {S : Surface ℝ} {C : Curve ℝ} {iu iv it : Nat} {p : V3 ℝ} (h : InsideCell S C iu iv it p) :
    InCell S C iu iv it p :=
  ⟨⟨h.1.1.le, h.1.2.le⟩, ⟨h.2.1.1.le, h.2.1.2.le⟩, ⟨h.2.2.1.le, h.2.2.2.le⟩⟩

theorem SurfAt.unique {K : Type} [Field K] [LinearOrder K] [IsStrictOrderedRing K] {S : Surface K} {u v : K} {x y : V3 K}
    (h1 : SurfAt S u v x) (h2 : SurfAt S u v y) : x = y := by
  have := (h1 0 0).symm.trans (h2 0 0)
  simp only [Except.ok.injEq, List.cons.injEq, Option.some.injEq, and_true] at this
  funext i
  fin_cases i
  · exact this.1
  · exact this.2.1
  · exact this.2.2

theorem CurveAt.unique {K : Type} [Field K] [LinearOrder K] [IsStrictOrderedRing K] {C : Curve K} {t : K} {x y : V3 K}
    (h1 : CurveAt C t x) (h2 : CurveAt C t y) : x = y := by
  have := (h1 0 0).symm.trans (h2 0 0)
  simp only [Except.ok.injEq, List.cons.injEq, Option.some.injEq, and_true] at this
  funext i
  fin_cases i
  · exact this.1
  · exact this.2.1
  · exact this.2.2

/-- C110. Strictly inside a cell the columns of the Jacobian are the partial derivatives of the surface point by `u` and
by `v`, and the negative derivative of the curve point by `t`. -/
theorem jacobian_correct {S : Surface ℝ} {C : Curve ℝ} (hS : GoodSurf S) (hC : GoodCurve C) {iu iv it : Nat}
    (hiu : iu < S.ub.nIntervals) (hiv : iv < S.vb.nIntervals) (hit : it < C.basis.nIntervals) {p : V3 ℝ}
    (hp : InsideCell S C iu iv it p) (Sf : ℝ → ℝ → V3 ℝ) (Cf : ℝ → V3 ℝ)
    (hSf : ∀ u v, S.ub.k (iu + 2) ≤ u → u ≤ S.ub.k (iu + 3) → S.vb.k (iv + 2) ≤ v → v ≤ S.vb.k (iv + 3) →
      SurfAt S u v (Sf u v))
    (hCf : ∀ t, C.basis.k (it + 2) ≤ t → t ≤ C.basis.k (it + 3) → CurveAt C t (Cf t)) :
    ∃ J, jacobianAndCoordinates S C p iu iv it = .ok (J, Sf (p 0) (p 1), Cf (p 2)) ∧ ∀ d,
      HasDerivAt (fun u => Sf u (p 1) d) (J d 0) (p 0) ∧ HasDerivAt (fun v => Sf (p 0) v d) (J d 1) (p 1) ∧
      HasDerivAt (fun t => Cf t d) (-(J d 2)) (p 2) := by
  obtain ⟨J', x1, x2, hJ', s1, s2⟩ := coordinates_spec hS hC hiu hiv hit hp.inCell
  have hpc := hp.inCell
  obtain ⟨⟨u1, u2⟩, ⟨v1, v2⟩, ⟨t1, t2⟩⟩ := hp
  obtain ⟨⟨u1', u2'⟩, ⟨v1', v2'⟩, ⟨t1', t2'⟩⟩ := hpc
  have ex1 : x1 = Sf (p 0) (p 1) := s1.unique (hSf _ _ u1' u2' v1' v2')
  have ex2 : x2 = Cf (p 2) := s2.unique (hCf _ t1' t2')
  subst ex1 ex2
  refine ⟨J', hJ', ?_⟩
  obtain ⟨Du, eu, du⟩ := evalDiffVec_deriv hS.hu (by rw [hS.du]; omega) hS.iu hiu (t := p 0) (by rw [hS.du]; exact u1)
    (by rw [hS.du]; exact u2)
  obtain ⟨Dv, ev, dv⟩ := evalDiffVec_deriv hS.hv (by rw [hS.dv]; omega) hS.iv hiv (t := p 1) (by rw [hS.dv]; exact v1)
    (by rw [hS.dv]; exact v2)
  obtain ⟨Dt, et, dt⟩ := evalDiffVec_deriv hC.hb (by rw [hC.deg]; omega) hC.inner hit (t := p 2) (by rw [hC.deg]; exact t1)
    (by rw [hC.deg]; exact t2)
  -- the entries of the matrix
  have hent : ∀ d : Fin 3, J' d 0 = (∑ j ∈ range (S.vb.degree + 1), S.vb.val (iv + j) (p 1) *
      ∑ i ∈ range (S.ub.degree + 1), Du i * S.pole (iu + i) (iv + j) d) ∧
      J' d 1 = (∑ j ∈ range (S.vb.degree + 1), Dv j *
      ∑ i ∈ range (S.ub.degree + 1), S.ub.val (iu + i) (p 0) * S.pole (iu + i) (iv + j) d) ∧
      J' d 2 = -∑ j ∈ range (C.basis.degree + 1), Dt j * C.pole (it + j) d := by
    unfold jacobianAndCoordinates at hJ'
    rw [hS.hu.evalVec hiu, hS.hv.evalVec hiv, hC.hb.evalVec hit, eu, ev, et] at hJ'
    simp only [liftE, bind, Except.bind] at hJ'
    rw [if_neg] at hJ'
    · simp only [noNan_some] at hJ'
      have hj := congrArg Prod.fst (Except.ok.inj hJ')
      intro d
      have hjd := congrFun hj d
      simp only at hjd
      rw [← hjd]
      have r0 : ∀ a b c : ℝ, (![a, b, c] : V3 ℝ) 0 = a := fun _ _ _ => rfl
      have r1 : ∀ a b c : ℝ, (![a, b, c] : V3 ℝ) 1 = b := fun _ _ _ => rfl
      have r2 : ∀ a b c : ℝ, (![a, b, c] : V3 ℝ) 2 = c := fun _ _ _ => rfl
      refine ⟨?_, ?_, ?_⟩
      · rw [r0, inner2_eq]
      · rw [r1, inner2_eq]
      · rw [r2]
        have e3 : List.range 3 = List.range (C.basis.degree + 1) := by rw [hC.deg]
        rw [e3, inner_range]
    · rintro (h | h | h | h | h)
      · exact h hS.du
      · exact h hS.dv
      · exact h hC.deg
      · exact h (width_of_dim hS.rat hS.dim)
      · exact h (cwidth_of_dim hC.rat hC.dim)
  -- local formulas of the points
  have fS : ∀ u v, S.ub.k (iu + 2) ≤ u → u ≤ S.ub.k (iu + 3) → S.vb.k (iv + 2) ≤ v → v ≤ S.vb.k (iv + 3) → ∀ d : Fin 3,
      Sf u v d = ∑ j ∈ range (S.vb.degree + 1), S.vb.val (iv + j) v *
          ∑ i ∈ range (S.ub.degree + 1), S.ub.val (iu + i) u * S.pole (iu + i) (iv + j) d := by
    intro u v a1 a2 b1 b2 d
    have := surfAt_local hS.hu hS.hv hS.rat hS.dim (by rw [hS.du]; omega) (by rw [hS.dv]; omega) hS.iu hS.iv hiu hiv
      (u := u) (v := v) (by rw [hS.du]; exact a1) (by rw [hS.du]; exact a2) (by rw [hS.dv]; exact b1)
      (by rw [hS.dv]; exact b2)
    exact congrFun ((hSf u v a1 a2 b1 b2).unique this) d
  have fC : ∀ t, C.basis.k (it + 2) ≤ t → t ≤ C.basis.k (it + 3) → ∀ d : Fin 3,
      Cf t d = ∑ j ∈ range (C.basis.degree + 1), C.basis.val (it + j) t * C.pole (it + j) d := by
    intro t a1 a2 d
    have := curveAt_local hC.hb hC.rat hC.dim (by rw [hC.deg]; omega) hC.inner hit (t := t) (by rw [hC.deg]; exact a1)
      (by rw [hC.deg]; exact a2)
    exact congrFun ((hCf t a1 a2).unique this) d
  intro d
  obtain ⟨j0, j1, j2⟩ := hent d
  rw [j0, j1, j2, neg_neg]
  refine ⟨?_, ?_, ?_⟩
  · have hd : HasDerivAt (fun u => ∑ j ∈ range (S.vb.degree + 1), S.vb.val (iv + j) (p 1) *
          ∑ i ∈ range (S.ub.degree + 1), S.ub.val (iu + i) u * S.pole (iu + i) (iv + j) d)
        (∑ j ∈ range (S.vb.degree + 1), S.vb.val (iv + j) (p 1) *
          ∑ i ∈ range (S.ub.degree + 1), Du i * S.pole (iu + i) (iv + j) d) (p 0) := by
      refine HasDerivAt.fun_sum fun j _ => HasDerivAt.const_mul _ (HasDerivAt.fun_sum fun i hi => ?_)
      exact (du i (mem_range.1 hi)).mul_const _
    refine hd.congr_of_eventuallyEq ?_
    filter_upwards [Ioo_mem_nhds u1 u2] with u hu
    exact fS u (p 1) hu.1.le hu.2.le v1' v2' d
  · have hd : HasDerivAt (fun v => ∑ j ∈ range (S.vb.degree + 1), S.vb.val (iv + j) v *
          ∑ i ∈ range (S.ub.degree + 1), S.ub.val (iu + i) (p 0) * S.pole (iu + i) (iv + j) d)
        (∑ j ∈ range (S.vb.degree + 1), Dv j *
          ∑ i ∈ range (S.ub.degree + 1), S.ub.val (iu + i) (p 0) * S.pole (iu + i) (iv + j) d) (p 1) := by
      refine HasDerivAt.fun_sum fun j hj => ?_
      exact (dv j (mem_range.1 hj)).mul_const _
    refine hd.congr_of_eventuallyEq ?_
    filter_upwards [Ioo_mem_nhds v1 v2] with v hv
    exact fS (p 0) v u1' u2' hv.1.le hv.2.le d
  · have hd : HasDerivAt (fun t => ∑ j ∈ range (C.basis.degree + 1), C.basis.val (it + j) t * C.pole (it + j) d)
        (∑ j ∈ range (C.basis.degree + 1), Dt j * C.pole (it + j) d) (p 2) := by
      refine HasDerivAt.fun_sum fun j hj => ?_
      exact (dt j (mem_range.1 hj)).mul_const _
    refine hd.congr_of_eventuallyEq ?_
    filter_upwards [Ioo_mem_nhds t1 t2] with t ht
    exact fC t ht.1.le ht.2.le d

/-- C110. If the difference of surface and curve is affine on a cell with non-empty interior, its matrix is regular and the
intersection lies in the cell, then with exact arithmetic and `max_it >= 2` the search converges: `conv` is true and the
returned parameters are the intersection, or the middle of the cell if that is already close enough. -/
theorem affine_converges {S : Surface ℝ} {C : Curve ℝ} (hS : GoodSurf S) (hC : GoodCurve C) {iu iv it : Nat}
    (hiu : iu < S.ub.nIntervals) (hiv : iv < S.vb.nIntervals) (hit : it < C.basis.nIntervals)
    (cu : S.ub.k (iu + 2) < S.ub.k (iu + 3)) (cv : S.vb.k (iv + 2) < S.vb.k (iv + 3))
    (ct : C.basis.k (it + 2) < C.basis.k (it + 3)) (A : Fin 3 → Fin 3 → ℝ) (b : V3 ℝ)
    (haff : ∀ p x1 x2, InCell S C iu iv it p → SurfAt S (p 0) (p 1) x1 → CurveAt C (p 2) x2 →
      ∀ d, x1 d - x2 d = mul3 A p d + b d)
    (hdet : det3 A ≠ 0) (q : V3 ℝ) (hq : InCell S C iu iv it q) (hq0 : ∀ d, mul3 A q d + b d = 0) (maxIt : Nat)
    (hm : 2 ≤ maxIt) (tol : ℝ) (ht : 0 < tol) :
    ∃ f, getIntersection solve3 S C iu iv it maxIt tol = .ok f ∧ f.conv = true ∧
      (f.uvt = q ∨ (f.uvt 0 = (S.ub.k (iu + 2) + S.ub.k (iu + 3)) / 2 ∧ f.uvt 1 = (S.vb.k (iv + 2) + S.vb.k (iv + 3)) / 2 ∧
        f.uvt 2 = (C.basis.k (it + 2) + C.basis.k (it + 3)) / 2)) ∧
      ∀ x1 x2, SurfAt S (f.uvt 0) (f.uvt 1) x1 → CurveAt C (f.uvt 2) x2 → sq (fun i => x1 i - x2 i) < tol ^ 2 := by
  set lo : V3 ℝ := ![S.ub.k (iu + 2), S.vb.k (iv + 2), C.basis.k (it + 2)] with hlo
  set hi : V3 ℝ := ![S.ub.k (iu + 3), S.vb.k (iv + 3), C.basis.k (it + 3)] with hhi
  set m : V3 ℝ := fun i => (lo i + hi i) / 2 with hmid
  have hins : InsideCell S C iu iv it m := by
    refine ⟨⟨?_, ?_⟩, ⟨?_, ?_⟩, ⟨?_, ?_⟩⟩ <;> simp [hmid, hlo, hhi] <;> linarith
  have hmc := hins.inCell
  -- some functions for the points
  have exS : ∀ u v, ∃ x, (S.ub.k (iu + 2) ≤ u → u ≤ S.ub.k (iu + 3) → S.vb.k (iv + 2) ≤ v → v ≤ S.vb.k (iv + 3) →
      SurfAt S u v x) := by
    intro u v
    by_cases h : S.ub.k (iu + 2) ≤ u ∧ u ≤ S.ub.k (iu + 3) ∧ S.vb.k (iv + 2) ≤ v ∧ v ≤ S.vb.k (iv + 3)
    · obtain ⟨_, x1, _, _, s1, _⟩ := coordinates_spec hS hC hiu hiv hit (p := ![u, v, m 2])
        ⟨⟨h.1, h.2.1⟩, ⟨h.2.2.1, h.2.2.2⟩, hmc.2.2⟩
      exact ⟨x1, fun _ _ _ _ => s1⟩
    · exact ⟨0, fun a b c d => absurd ⟨a, b, c, d⟩ h⟩
  have exC : ∀ t, ∃ x, (C.basis.k (it + 2) ≤ t → t ≤ C.basis.k (it + 3) → CurveAt C t x) := by
    intro t
    by_cases h : C.basis.k (it + 2) ≤ t ∧ t ≤ C.basis.k (it + 3)
    · obtain ⟨_, _, x2, _, _, s2⟩ := coordinates_spec hS hC hiu hiv hit (p := ![m 0, m 1, t])
        ⟨hmc.1, hmc.2.1, h⟩
      exact ⟨x2, fun _ _ => s2⟩
    · exact ⟨0, fun a b => absurd ⟨a, b⟩ h⟩
  choose Sf hSf using exS
  choose Cf hCf using exC
  have hval : ∀ u v t, S.ub.k (iu + 2) ≤ u → u ≤ S.ub.k (iu + 3) → S.vb.k (iv + 2) ≤ v → v ≤ S.vb.k (iv + 3) →
      C.basis.k (it + 2) ≤ t → t ≤ C.basis.k (it + 3) → ∀ d, Sf u v d - Cf t d = A d 0 * u + A d 1 * v + A d 2 * t + b d := by
    intro u v t a1 a2 b1 b2 c1 c2 d
    exact haff ![u, v, t] _ _ ⟨⟨a1, a2⟩, ⟨b1, b2⟩, ⟨c1, c2⟩⟩ (hSf u v a1 a2 b1 b2) (hCf t c1 c2) d
  obtain ⟨J, hJ, hder⟩ := jacobian_correct hS hC hiu hiv hit hins Sf Cf hSf hCf
  have hJA : J = A := by
    funext d k
    obtain ⟨d0, d1, d2⟩ := hder d
    obtain ⟨⟨u1, u2⟩, ⟨v1, v2⟩, ⟨t1, t2⟩⟩ := hins
    fin_cases k
    · have h : HasDerivAt (fun u => A d 0 * u + (A d 1 * m 1 + A d 2 * m 2 + b d + Cf (m 2) d)) (A d 0) (m 0) := by
        simpa using ((hasDerivAt_id (m 0)).const_mul (A d 0)).add_const (A d 1 * m 1 + A d 2 * m 2 + b d + Cf (m 2) d)
      refine d0.unique (h.congr_of_eventuallyEq ?_)
      filter_upwards [Ioo_mem_nhds u1 u2] with u hu
      have := hval u (m 1) (m 2) hu.1.le hu.2.le v1.le v2.le t1.le t2.le d
      linarith
    · have h : HasDerivAt (fun v => A d 1 * v + (A d 0 * m 0 + A d 2 * m 2 + b d + Cf (m 2) d)) (A d 1) (m 1) := by
        simpa using ((hasDerivAt_id (m 1)).const_mul (A d 1)).add_const (A d 0 * m 0 + A d 2 * m 2 + b d + Cf (m 2) d)
      refine d1.unique (h.congr_of_eventuallyEq ?_)
      filter_upwards [Ioo_mem_nhds v1 v2] with v hv
      have := hval (m 0) v (m 2) u1.le u2.le hv.1.le hv.2.le t1.le t2.le d
      linarith
    · have h : HasDerivAt (fun t => -A d 2 * t + (Sf (m 0) (m 1) d - (A d 0 * m 0 + A d 1 * m 1 + b d))) (-A d 2) (m 2) := by
        simpa using ((hasDerivAt_id (m 2)).const_mul (-A d 2)).add_const
          (Sf (m 0) (m 1) d - (A d 0 * m 0 + A d 1 * m 1 + b d))
      have := d2.unique (h.congr_of_eventuallyEq (by
        filter_upwards [Ioo_mem_nhds t1 t2] with t ht'
        have := hval (m 0) (m 1) t u1.le u2.le v1.le v2.le ht'.1.le ht'.2.le d
        linarith))
      exact neg_injective this
  subst hJA
  obtain ⟨n, hn⟩ : ∃ n, maxIt = n + 2 := ⟨maxIt - 2, by omega⟩
  rw [getIntersection_eq solve3 hS hC hiu hiv hit]
  rw [← hlo, ← hhi, hn]
  unfold newtonLoop
  rw [show jacobianAndCoordinates S C (fun i => (lo i + hi i) / 2) iu iv it = .ok (J, Sf (m 0) (m 1), Cf (m 2)) from hJ]
  simp only [bind, Except.bind]
  by_cases hlt : normLt (fun i => Sf (m 0) (m 1) i - Cf (m 2) i) tol = true
  · rw [if_pos hlt]
    have hlt' : sq (fun i => Sf (m 0) (m 1) i - Cf (m 2) i) < tol * tol := by
      have := hlt
      simp only [normLt, decide_eq_true_eq] at this
      exact this.2
    refine ⟨_, rfl, ?_, Or.inr ⟨rfl, rfl, rfl⟩, ?_⟩
    · simp only [normLe, decide_eq_true_eq]
      exact ⟨ht.le, hlt'.le⟩
    · intro x1 x2 s1 s2
      have e1 := s1.unique (hSf (m 0) (m 1) hmc.1.1 hmc.1.2 hmc.2.1.1 hmc.2.1.2)
      have e2 := s2.unique (hCf (m 2) hmc.2.2.1 hmc.2.2.2)
      rw [e1, e2, pow_two]
      exact hlt'
  · rw [if_neg hlt]
    have hs : solve3 J (fun i => Sf (m 0) (m 1) i - Cf (m 2) i) = .ok (fun i => m i - q i) := by
      apply (solve3_spec J _).2.2 hdet
      funext d
      have h1 := haff m _ _ hmc (hSf (m 0) (m 1) hmc.1.1 hmc.1.2 hmc.2.1.1 hmc.2.1.2) (hCf (m 2) hmc.2.2.1 hmc.2.2.2) d
      have h2 := hq0 d
      simp only [mul3] at h1 h2 ⊢
      linarith
    rw [hs]
    simp only
    have hqb := (cell_iff S C iu iv it q).1 hq
    have hclip : (clip lo hi fun i => (lo i + hi i) / 2 - (m i - q i)) = q := by
      funext i
      have e : (lo i + hi i) / 2 - (m i - q i) = q i := by simp only [hmid]; ring
      unfold clip
      simp only
      rw [e, max_eq_left (hqb i).1, min_eq_left (hqb i).2]
    rw [hclip]
    obtain ⟨J2, y1, y2, hF, s1, s2⟩ := coordinates_spec hS hC hiu hiv hit hq
    have hz : ∀ d, y1 d - y2 d = 0 := fun d => by rw [haff q y1 y2 hq s1 s2 d, hq0 d]
    have hsq : sq (fun i => y1 i - y2 i) = 0 := by simp [sq, hz]
    rw [newtonLoop, hF]
    simp only [bind, Except.bind]
    have hlt2 : normLt (fun i => y1 i - y2 i) tol = true := by
      simp only [normLt, decide_eq_true_eq]
      rw [hsq]
      exact ⟨ht, by positivity⟩
    rw [if_pos hlt2]
    refine ⟨_, rfl, ?_, Or.inl rfl, ?_⟩
    · simp only [normLe, decide_eq_true_eq]
      rw [hsq]
      exact ⟨ht.le, by positivity⟩
    · intro x1 x2 a1 a2
      rw [a1.unique s1, a2.unique s2, hsq]
      positivity

end Verif.Isec
