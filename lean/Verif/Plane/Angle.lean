import Verif.Plane.Corner
import Verif.Decomp.Demo

/-! The angle of `np.angle` and the rational one tell left from right. -/

namespace Verif.Decomp
open Verif.Plane

theorem realGeom_arg (tiny eps : ℝ) : ArgOk (realGeom tiny eps) where
  toAngleOk := realGeom_ok tiny eps
  turn := fun u v hu hv => by
    change 0 < crs u v ↔ (Complex.arg ⟨u.1, u.2⟩ < Complex.arg ⟨v.1, v.2⟩ ∧
      Complex.arg ⟨v.1, v.2⟩ < Complex.arg ⟨u.1, u.2⟩ + 2 * Real.pi / 2) ∨
      Complex.arg ⟨v.1, v.2⟩ < Complex.arg ⟨u.1, u.2⟩ - 2 * Real.pi / 2
    have nz : ∀ v : ℝ × ℝ, v ≠ (0, 0) → (⟨v.1, v.2⟩ : ℂ) ≠ 0 := fun v hv h =>
      hv (Prod.ext (congrArg Complex.re h) (congrArg Complex.im h))
    have hc : crs u v = ‖(⟨u.1, u.2⟩ : ℂ)‖ * ‖(⟨v.1, v.2⟩ : ℂ)‖ *
        Real.sin (Complex.arg ⟨v.1, v.2⟩ - Complex.arg ⟨u.1, u.2⟩) := by
      have a1 := Complex.norm_mul_cos_arg (⟨u.1, u.2⟩ : ℂ)
      have a2 := Complex.norm_mul_sin_arg (⟨u.1, u.2⟩ : ℂ)
      have b1 := Complex.norm_mul_cos_arg (⟨v.1, v.2⟩ : ℂ)
      have b2 := Complex.norm_mul_sin_arg (⟨v.1, v.2⟩ : ℂ)
      rw [Real.sin_sub]
      dsimp only at a1 a2 b1 b2
      unfold crs
      refine Eq.trans (b := (‖(⟨u.1, u.2⟩ : ℂ)‖ * Real.cos (Complex.arg ⟨u.1, u.2⟩)) *
        (‖(⟨v.1, v.2⟩ : ℂ)‖ * Real.sin (Complex.arg ⟨v.1, v.2⟩)) - (‖(⟨u.1, u.2⟩ : ℂ)‖ * Real.sin (Complex.arg ⟨u.1, u.2⟩)) *
        (‖(⟨v.1, v.2⟩ : ℂ)‖ * Real.cos (Complex.arg ⟨v.1, v.2⟩))) (by rw [a1, a2, b1, b2]) (by ring)
    have p : 0 < ‖(⟨u.1, u.2⟩ : ℂ)‖ * ‖(⟨v.1, v.2⟩ : ℂ)‖ := mul_pos (norm_pos_iff.2 (nz u hu)) (norm_pos_iff.2 (nz v hv))
    rw [hc, mul_pos_iff_of_pos_left p]
    have u1 := Complex.neg_pi_lt_arg ⟨u.1, u.2⟩
    have u2 := Complex.arg_le_pi ⟨u.1, u.2⟩
    have v1 := Complex.neg_pi_lt_arg ⟨v.1, v.2⟩
    have v2 := Complex.arg_le_pi ⟨v.1, v.2⟩
    generalize Complex.arg ⟨u.1, u.2⟩ = a at *
    generalize Complex.arg ⟨v.1, v.2⟩ = b at *
    have hp := Real.pi_pos
    constructor
    · intro h
      by_contra hn
      push Not at hn
      obtain ⟨n1, n2⟩ := hn
      rcases lt_or_ge a b with k | k
      · have := n1 k
        have h2 : 0 ≤ Real.sin (b - a - Real.pi) := Real.sin_nonneg_of_nonneg_of_le_pi (by linarith) (by linarith)
        rw [Real.sin_sub_pi] at h2
        linarith
      · have h2 := Real.sin_nonpos_of_nonpos_of_neg_pi_le (x := b - a) (by linarith) (by linarith)
        linarith
    · rintro (⟨h1, h2⟩ | h)
      · exact Real.sin_pos_of_pos_of_lt_pi (by linarith) (by linarith)
      · have h2 := Real.sin_pos_of_pos_of_lt_pi (x := b - a + 2 * Real.pi) (by linarith) (by linarith)
        rwa [Real.sin_add_two_pi] at h2

/-- `squareAng` for vectors on the square. -/
theorem square_turn {u v : ℚ × ℚ} (hu : |u.1| + |u.2| = 1) (hv : |v.1| + |v.2| = 1) :
    0 < crs u v ↔ (squareAng u < squareAng v ∧ squareAng v < squareAng u + 4 / 2) ∨ squareAng v < squareAng u - 4 / 2 := by
  have red : ∀ v : ℚ × ℚ, |v.1| + |v.2| = 1 →
      (0 ≤ v.1 ∧ 0 ≤ v.2 ∧ v.1 = 1 - v.2 ∧ squareAng v = v.2) ∨ (v.1 < 0 ∧ 0 ≤ v.2 ∧ v.2 = 1 + v.1 ∧ squareAng v = 1 - v.1) ∨
      (v.1 < 0 ∧ v.2 < 0 ∧ v.1 = -1 - v.2 ∧ squareAng v = -2 - v.2) ∨
      (0 ≤ v.1 ∧ v.2 < 0 ∧ v.2 = v.1 - 1 ∧ squareAng v = -1 + v.1) := by
    intro v h
    unfold squareAng
    rcases le_or_gt 0 v.1 with h1 | h1 <;> rcases le_or_gt 0 v.2 with h2 | h2
    · rw [abs_of_nonneg h1, abs_of_nonneg h2] at h
      refine Or.inl ⟨h1, h2, by linarith, ?_⟩
      rw [if_pos h2, if_pos h1, h, div_one]
    · rw [abs_of_nonneg h1, abs_of_neg h2] at h
      refine Or.inr (Or.inr (Or.inr ⟨h1, h2, by linarith, ?_⟩))
      rw [if_neg (not_le.2 h2), if_neg (not_lt.2 h1), show v.1 - v.2 = 1 by linarith, div_one]
    · rw [abs_of_neg h1, abs_of_nonneg h2] at h
      refine Or.inr (Or.inl ⟨h1, h2, by linarith, ?_⟩)
      rw [if_pos h2, if_neg (not_le.2 h1), show v.2 - v.1 = 1 by linarith, div_one]
    · rw [abs_of_neg h1, abs_of_neg h2] at h
      refine Or.inr (Or.inr (Or.inl ⟨h1, h2, by linarith, ?_⟩))
      rw [if_neg (not_le.2 h2), if_pos h1, show -v.1 - v.2 = 1 by linarith, div_one]
  obtain ⟨a, b⟩ := u
  obtain ⟨c, d⟩ := v
  unfold crs
  rcases red _ hu with ⟨h1, h2, h3, h4⟩ | ⟨h1, h2, h3, h4⟩ | ⟨h1, h2, h3, h4⟩ | ⟨h1, h2, h3, h4⟩ <;>
    rcases red _ hv with ⟨k1, k2, k3, k4⟩ | ⟨k1, k2, k3, k4⟩ | ⟨k1, k2, k3, k4⟩ | ⟨k1, k2, k3, k4⟩ <;>
    rw [h4, k4] <;> dsimp only at * <;> clear h4 k4 hu hv red <;> subst h3 k3 <;>
    constructor <;>
    first
    | (intro h
       by_contra hn
       rw [not_or, not_and_or, not_lt, not_lt, not_lt] at hn
       obtain ⟨hn | hn, hm⟩ := hn <;> nlinarith)
    | (rintro (⟨h, h'⟩ | h) <;> nlinarith)
    | (rintro (⟨h, h'⟩ | h)
       · rcases h2.lt_or_eq with k | k
         · nlinarith
         · subst k; nlinarith
       · nlinarith)
    | (rintro (⟨h, h'⟩ | h)
       · rcases k1.lt_or_eq with k | k
         · nlinarith
         · have : d = 1 := by linarith
           subst this; nlinarith
       · nlinarith)

theorem demo_arg : ArgOk demo where
  toAngleOk := demo_ok
  turn := fun u v hu hv => by
    change 0 < crs u v ↔ (squareAng u < squareAng v ∧ squareAng v < squareAng u + 4 / 2) ∨ squareAng v < squareAng u - 4 / 2
    have pos : ∀ v : ℚ × ℚ, v ≠ (0, 0) → 0 < |v.1| + |v.2| := by
      intro v hv
      refine lt_of_le_of_ne (add_nonneg (abs_nonneg _) (abs_nonneg _)) fun h => hv ?_
      have a1 := abs_nonneg v.1
      have a2 := abs_nonneg v.2
      exact Prod.ext (abs_eq_zero.1 (by linarith)) (abs_eq_zero.1 (by linarith))
    have pu := inv_pos.2 (pos u hu)
    have pv := inv_pos.2 (pos v hv)
    have unit : ∀ v : ℚ × ℚ, v ≠ (0, 0) → |(|v.1| + |v.2|)⁻¹ * v.1| + |(|v.1| + |v.2|)⁻¹ * v.2| = 1 := by
      intro v hv
      have hp := pos v hv
      rw [abs_mul, abs_mul, abs_of_pos (inv_pos.2 hp), ← mul_add, inv_mul_cancel₀ hp.ne']
    have h := square_turn (u := ((|u.1| + |u.2|)⁻¹ * u.1, (|u.1| + |u.2|)⁻¹ * u.2))
      (v := ((|v.1| + |v.2|)⁻¹ * v.1, (|v.1| + |v.2|)⁻¹ * v.2)) (unit u hu) (unit v hv)
    have s1 : squareAng ((|u.1| + |u.2|)⁻¹ * u.1, (|u.1| + |u.2|)⁻¹ * u.2) = squareAng u := demo_ok.scale _ pu u
    have s2 : squareAng ((|v.1| + |v.2|)⁻¹ * v.1, (|v.1| + |v.2|)⁻¹ * v.2) = squareAng v := demo_ok.scale _ pv v
    rw [s1, s2] at h
    rw [← h]
    have e : crs ((|u.1| + |u.2|)⁻¹ * u.1, (|u.1| + |u.2|)⁻¹ * u.2) ((|v.1| + |v.2|)⁻¹ * v.1, (|v.1| + |v.2|)⁻¹ * v.2) =
        (|u.1| + |u.2|)⁻¹ * (|v.1| + |v.2|)⁻¹ * crs u v := by unfold crs; ring
    rw [e, mul_pos_iff_of_pos_left (mul_pos pu pv)]

end Verif.Decomp
