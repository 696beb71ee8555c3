import Verif.Spline.Model
import Mathlib.Algebra.BigOperators.Intervals
import Mathlib.Algebra.BigOperators.Ring.Finset
import Mathlib.Algebra.BigOperators.Group.Finset.Basic
import Mathlib.Algebra.Order.BigOperators.Group.Finset
import Mathlib.Tactic.Linarith
import Mathlib.Tactic.Ring
import Mathlib.Tactic.FieldSimp
/-! Lemmas about the Cox - de Boor recursion over a monotone knot function. -/
namespace Verif.Spline
open Finset

set_option linter.unusedSectionVars false
variable {K : Type} [Field K] [LinearOrder K] [IsStrictOrderedRing K]

/-- The recursion reads only the knots `idx .. idx+deg+1`. -/
theorem basisFn_congr (k k' : Nat → K) (t : K) :
    ∀ deg idx, (∀ j, idx ≤ j → j ≤ idx + deg + 1 → k j = k' j) → basisFn k deg idx t = basisFn k' deg idx t := by
  intro deg
  induction deg with
  | zero => intro idx h; simp only [basisFn]; rw [h idx (by omega) (by omega), h (idx + 1) (by omega) (by omega)]
  | succ d ih =>
    intro idx h
    simp only [basisFn]
    rw [h idx (by omega) (by omega), h (idx + 1) (by omega) (by omega), h (idx + (d + 1)) (by omega) (by omega),
      h (idx + (d + 1) + 1) (by omega) (by omega), ih idx (fun j h1 h2 => h j (by omega) (by omega)),
      ih (idx + 1) (fun j h1 h2 => h j (by omega) (by omega))]

/-- One step without the guards: in a field `x / 0 = 0`. -/
theorem basisFn_succ (k : Nat → K) (d i : Nat) (t : K) :
    basisFn k (d + 1) i t = (t - k i) / (k (i + (d + 1)) - k i) * basisFn k d i t +
      (k (i + (d + 1) + 1) - t) / (k (i + (d + 1) + 1) - k (i + 1)) * basisFn k d (i + 1) t := by
  simp only [basisFn]
  by_cases h1 : k (i + (d + 1)) - k i = 0 <;> by_cases h2 : k (i + (d + 1) + 1) - k (i + 1) = 0 <;> simp [h1, h2]

/-- Local support. -/
theorem basisFn_zero_out (k : Nat → K) (hk : Monotone k) (t : K) :
    ∀ d i, t < k i ∨ k (i + d + 1) ≤ t → basisFn k d i t = 0 := by
  intro d
  induction d with
  | zero =>
    intro i h
    simp only [basisFn]
    rw [if_neg]
    rintro ⟨h1, h2⟩
    rcases h with h | h
    · exact absurd h (not_lt.2 h1)
    · exact absurd h2 (not_lt.2 h)
  | succ d ih =>
    intro i h
    rw [basisFn_succ, ih i, ih (i + 1)]
    · simp
    · rcases h with h | h
      · exact Or.inl (lt_of_lt_of_le h (hk (by omega)))
      · exact Or.inr (le_trans (hk (by omega)) h)
    · rcases h with h | h
      · exact Or.inl h
      · exact Or.inr (le_trans (hk (by omega)) h)

theorem basisFn_nonneg (k : Nat → K) (hk : Monotone k) (t : K) : ∀ d i, 0 ≤ basisFn k d i t := by
  intro d
  induction d with
  | zero => intro i; simp only [basisFn]; split <;> simp
  | succ d ih =>
    intro i
    rw [basisFn_succ]
    apply add_nonneg
    · by_cases h : t < k i
      · rw [basisFn_zero_out k hk t d i (Or.inl h)]; simp
      · exact mul_nonneg (div_nonneg (sub_nonneg.2 (not_lt.1 h)) (sub_nonneg.2 (hk (by omega)))) (ih _)
    · by_cases h : k (i + 1 + d + 1) ≤ t
      · rw [basisFn_zero_out k hk t d (i + 1) (Or.inr h)]; simp
      · refine mul_nonneg (div_nonneg (sub_nonneg.2 ?_) (sub_nonneg.2 (hk (by omega)))) (ih _)
        have e : i + (d + 1) + 1 = i + 1 + d + 1 := by omega
        rw [e]
        exact (not_le.1 h).le

/-- Splitting a weighted sum of degree `d+1` functions into degree `d` functions. `n` is any number of functions beyond
which everything vanishes at `t`. -/
theorem sum_step (k : Nat → K) (t : K) (d n : Nat) (c : Nat → K)
    (h0 : basisFn k d 0 t = 0) (hn : basisFn k d (n + 1) t = 0) :
    ∑ i ∈ range (n + 1), c i * basisFn k (d + 1) i t =
      ∑ i ∈ range n, ((t - k (i + 1)) / (k (i + 1 + (d + 1)) - k (i + 1)) * c (i + 1) +
        (k (i + 1 + (d + 1)) - t) / (k (i + 1 + (d + 1)) - k (i + 1)) * c i) * basisFn k d (i + 1) t := by
  have e1 : ∑ i ∈ range (n + 1), c i * basisFn k (d + 1) i t =
      ∑ i ∈ range (n + 1), c i * ((t - k i) / (k (i + (d + 1)) - k i)) * basisFn k d i t +
      ∑ i ∈ range (n + 1), c i * ((k (i + (d + 1) + 1) - t) / (k (i + (d + 1) + 1) - k (i + 1))) *
        basisFn k d (i + 1) t := by
    rw [← sum_add_distrib]
    refine sum_congr rfl fun i _ => ?_
    rw [basisFn_succ]
    ring
  rw [e1, sum_range_succ', sum_range_succ (fun i => c i * ((k (i + (d + 1) + 1) - t) /
    (k (i + (d + 1) + 1) - k (i + 1))) * basisFn k d (i + 1) t), h0, hn]
  simp only [mul_zero, add_zero]
  rw [← sum_add_distrib]
  refine sum_congr rfl fun i _ => ?_
  have e : i + (d + 1) + 1 = i + 1 + (d + 1) := by omega
  rw [e]
  ring

/-- On a non-empty knot interval `[k m, k (m+1))` the functions `m-d .. m` sum to one and the others vanish. -/
theorem sum_window (k : Nat → K) (hk : Monotone k) (t : K) (m : Nat) (h1 : k m ≤ t) (h2 : t < k (m + 1)) :
    ∀ d, d ≤ m → ∑ j ∈ range (d + 1), basisFn k d (m - d + j) t = 1 := by
  intro d
  induction d with
  | zero => intro _; rw [sum_range_one]; simp [basisFn, h1, h2]
  | succ d ih =>
    intro hd
    have ih := ih (by omega)
    -- shift the knots so that the window starts at 0
    have hsh : ∀ d' i s, basisFn (fun j => k (s + j)) d' i t = basisFn k d' (s + i) t := by
      intro d'
      induction d' with
      | zero => intro i s; simp only [basisFn]; rfl
      | succ d' ih' =>
        intro i s
        rw [basisFn_succ, basisFn_succ, ih', ih']
        simp only [Nat.add_assoc]
    have hs := sum_step (fun j => k (m - (d + 1) + j)) t d (d + 1) (fun _ => 1)
      (by rw [hsh]; exact basisFn_zero_out k hk t d _ (Or.inr (le_trans (hk (by omega)) h1)))
      (by rw [hsh]; exact basisFn_zero_out k hk t d _ (Or.inl (lt_of_lt_of_le h2 (hk (by omega)))))
    simp only [hsh, one_mul, mul_one] at hs
    rw [hs, ← ih]
    refine sum_congr rfl fun j hj => ?_
    have hj := mem_range.1 hj
    have e : m - (d + 1) + (j + 1) = m - d + j := by omega
    have e2 : m - (d + 1) + (j + 1 + (d + 1)) = m - d + j + d + 1 := by omega
    rw [e, e2, ← add_div]
    have hpos : k (m - d + j + d + 1) - k (m - d + j) ≠ 0 := by
      have a : k (m - d + j) ≤ k m := hk (by omega)
      have b : k (m + 1) ≤ k (m - d + j + d + 1) := hk (by omega)
      exact ne_of_gt (sub_pos.2 (lt_of_le_of_lt a (lt_of_le_of_lt h1 (lt_of_lt_of_le h2 b))))
    rw [show t - k (m - d + j) + (k (m - d + j + d + 1) - t) = k (m - d + j + d + 1) - k (m - d + j) by ring,
      div_self hpos, one_mul]

/-- Greville sum: `k (i+1) + .. + k (i+d)`. -/
def grev (k : Nat → K) (i d : Nat) : K := ∑ j ∈ range d, k (i + 1 + j)

/-- Linear precision on a window, for a weighted sum with `p * c i = grev`. -/
theorem sum_linear (k : Nat → K) (hk : Monotone k) (t : K) (m : Nat) (h1 : k m ≤ t) (h2 : t < k (m + 1)) :
    ∀ d, d ≤ m → ∑ j ∈ range (d + 1), grev k (m - d + j) d * basisFn k d (m - d + j) t = (d : K) * t := by
  intro d
  induction d with
  | zero => intro _; simp [grev]
  | succ d ih =>
    intro hd
    have ih := ih (by omega)
    have hw := sum_window k hk t m h1 h2 d (by omega)
    have hsh : ∀ d' i s, basisFn (fun j => k (s + j)) d' i t = basisFn k d' (s + i) t := by
      intro d'
      induction d' with
      | zero => intro i s; simp only [basisFn]; rfl
      | succ d' ih' =>
        intro i s
        rw [basisFn_succ, basisFn_succ, ih', ih']
        simp only [Nat.add_assoc]
    have hs := sum_step (fun j => k (m - (d + 1) + j)) t d (d + 1) (fun j => grev k (m - (d + 1) + j) (d + 1))
      (by rw [hsh]; exact basisFn_zero_out k hk t d _ (Or.inr (le_trans (hk (by omega)) h1)))
      (by rw [hsh]; exact basisFn_zero_out k hk t d _ (Or.inl (lt_of_lt_of_le h2 (hk (by omega)))))
    simp only [hsh] at hs
    rw [hs]
    have : ((d + 1 : ℕ) : K) * t = (d : K) * t + t * 1 := by push_cast; ring
    rw [this, ← ih, ← hw, mul_sum, ← sum_add_distrib]
    refine sum_congr rfl fun j hj => ?_
    have hj := mem_range.1 hj
    have e : m - (d + 1) + (j + 1) = m - d + j := by omega
    have e2 : m - (d + 1) + (j + 1 + (d + 1)) = m - d + j + d + 1 := by omega
    rw [e, e2]
    generalize hi : m - d + j = i
    have hi' : m - (d + 1) + j + 1 = i := by omega
    have hpos : k (i + d + 1) - k i ≠ 0 := by
      have a : k i ≤ k m := hk (by omega)
      have b : k (m + 1) ≤ k (i + d + 1) := hk (by omega)
      exact ne_of_gt (sub_pos.2 (lt_of_le_of_lt a (lt_of_le_of_lt h1 (lt_of_lt_of_le h2 b))))
    -- grev of the three neighbours
    have g1 : grev k i (d + 1) = grev k i d + k (i + d + 1) := by
      unfold grev; rw [sum_range_succ]; congr 2; omega
    have g2 : grev k (m - (d + 1) + j) (d + 1) = grev k i d + k i := by
      unfold grev
      rw [sum_range_succ', hi']
      congr 1
      refine sum_congr rfl fun x _ => ?_
      congr 1
      omega
    rw [g1, g2]
    field_simp
    ring

/-- Where the last `d+1` knots up to `m` coincide with `t`, the first function of the window is one. -/
theorem basisFn_at_start (k : Nat → K) (hk : Monotone k) (t : K) (m : Nat) (h1 : k m = t) (h2 : t < k (m + 1)) :
    ∀ d, d ≤ m → (∀ j, m - d ≤ j → j ≤ m → k j = t) → basisFn k d (m - d) t = 1 := by
  intro d hd hj
  have hw := sum_window k hk t m h1.le h2 d hd
  rw [sum_range_succ'] at hw
  have : ∑ j ∈ range d, basisFn k d (m - d + (j + 1)) t = 0 := by
    refine sum_eq_zero fun j hjm => ?_
    have hjm := mem_range.1 hjm
    -- all functions starting at `t` with index above `m-d` vanish at `t`
    have gen : ∀ d' i, m < i + d' → m - d ≤ i → basisFn k d' i t = 0 := by
      intro d'
      induction d' with
      | zero => intro i h _; exact basisFn_zero_out k hk t 0 i (Or.inl (lt_of_lt_of_le h2 (hk (by omega))))
      | succ d' ih =>
        intro i h hi
        rw [basisFn_succ]
        by_cases hm : i ≤ m
        · rw [hj i hi hm, sub_self, zero_div, zero_mul, zero_add, ih (i + 1) (by omega) (by omega), mul_zero]
        · exact by
            rw [ih i (by omega) hi, ih (i + 1) (by omega) (by omega)]; simp
    exact gen d _ (by omega) (by omega)
  rw [this, zero_add] at hw
  simpa using hw

end Verif.Spline
