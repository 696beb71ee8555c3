import Verif.Spline.Geom
import Mathlib.Analysis.Calculus.Deriv.Mul
import Mathlib.Analysis.Calculus.Deriv.Add
import Mathlib.Analysis.Calculus.Deriv.Basic
/-! Property theorems about `eval_diff` (C25, second half of C19). -/
namespace Verif.Spline
open Finset

set_option linter.unusedSectionVars false

section poly
variable {K : Type} [Field K] [LinearOrder K] [IsStrictOrderedRing K]

/-- The polynomial piece of the recursion on the interval `m`. -/
def piece (k : Nat → K) (m : Nat) : Nat → Nat → K → K
  | 0, i, _ => if i = m then 1 else 0
  | d + 1, i, t => (t - k i) / (k (i + (d + 1)) - k i) * piece k m d i t +
      (k (i + (d + 1) + 1) - t) / (k (i + (d + 1) + 1) - k (i + 1)) * piece k m d (i + 1) t

theorem basisFn_eq_piece (k : Nat → K) (hk : Monotone k) (m : Nat) (t : K) (h1 : k m ≤ t) (h2 : t < k (m + 1)) :
    ∀ d i, basisFn k d i t = piece k m d i t := by
  intro d
  induction d with
  | zero =>
    intro i
    simp only [basisFn, piece]
    by_cases h : i = m
    · subst h; rw [if_pos ⟨h1, h2⟩, if_pos rfl]
    · rw [if_neg h, if_neg]
      rintro ⟨a, b⟩
      rcases Nat.lt_or_gt_of_ne h with hh | hh
      · exact absurd (lt_of_lt_of_le b (hk (by omega : i + 1 ≤ m))) (not_lt.2 h1)
      · exact absurd (le_trans (hk (by omega : m + 1 ≤ i)) a) (not_le.2 h2)
  | succ d ih => intro i; rw [basisFn_succ, piece, ih, ih]

theorem piece_out (k : Nat → K) (m : Nat) (t : K) : ∀ d i, m < i ∨ i + d < m → piece k m d i t = 0 := by
  intro d
  induction d with
  | zero => intro i h; simp only [piece]; rw [if_neg (by omega)]
  | succ d ih => intro i h; rw [piece, ih i (by omega), ih (i + 1) (by omega)]; simp

/-- Left limit at the end of the interval, when the following knots coincide. -/
theorem piece_end (k : Nat → K) (m : Nat) (t : K) (hm : k m < t) :
    ∀ d, (∀ j, m < j → j ≤ m + d + 1 → k j = t) → ∀ i, piece k m d i t = if i = m then 1 else 0 := by
  intro d
  induction d with
  | zero => intro _ i; rfl
  | succ d ih =>
    intro hj i
    have ih := ih (fun j h1 h2 => hj j h1 (by omega))
    rw [piece, ih, ih]
    by_cases h : i = m
    · subst h
      rw [if_pos rfl, if_neg (by omega), hj (i + (d + 1)) (by omega) (by omega), mul_one, mul_zero, add_zero]
      exact div_self (sub_pos.2 hm).ne'
    · rw [if_neg h]
      by_cases h' : i + 1 = m
      · rw [if_pos h', hj (i + (d + 1) + 1) (by omega) (by omega)]; simp
      · simp [h']

end poly

/-- Derivative of a polynomial piece. -/
theorem piece_hasDeriv (k : Nat → ℝ) (hk : Monotone k) (m : Nat) (t : ℝ) :
    ∀ d i, HasDerivAt (piece k m (d + 1) i)
      (((d + 1 : ℕ) : ℝ) * (piece k m d i t / (k (i + (d + 1)) - k i) -
        piece k m d (i + 1) t / (k (i + (d + 1) + 1) - k (i + 1)))) t := by
  intro d
  induction d with
  | zero =>
    intro i
    have e : piece k m (0 + 1) i = fun s => (s - k i) * (1 / (k (i + 1) - k i) * if i = m then (1 : ℝ) else 0) +
        (k (i + 1 + 1) - s) * (1 / (k (i + 1 + 1) - k (i + 1)) * if i + 1 = m then (1 : ℝ) else 0) := by
      funext s; simp only [piece, Nat.zero_add]; ring
    rw [e]
    have h1 := ((hasDerivAt_id t).sub_const (k i)).mul_const (1 / (k (i + 1) - k i) * if i = m then (1 : ℝ) else 0)
    have h2 := ((hasDerivAt_id t).const_sub (k (i + 1 + 1))).mul_const
      (1 / (k (i + 1 + 1) - k (i + 1)) * if i + 1 = m then (1 : ℝ) else 0)
    refine (h1.add h2).congr_deriv ?_
    simp only [piece, Nat.zero_add, Nat.cast_one]
    ring
  | succ d ih =>
    intro i
    have e : piece k m (d + 1 + 1) i = fun s =>
        (s - k i) * (1 / (k (i + (d + 1 + 1)) - k i)) * piece k m (d + 1) i s +
        (k (i + (d + 1 + 1) + 1) - s) * (1 / (k (i + (d + 1 + 1) + 1) - k (i + 1))) * piece k m (d + 1) (i + 1) s := by
      funext s; rw [piece]; ring
    rw [e]
    have h1 := (((hasDerivAt_id t).sub_const (k i)).mul_const (1 / (k (i + (d + 1 + 1)) - k i))).mul (ih i)
    have h2 := (((hasDerivAt_id t).const_sub (k (i + (d + 1 + 1) + 1))).mul_const
      (1 / (k (i + (d + 1 + 1) + 1) - k (i + 1)))).mul (ih (i + 1))
    refine (h1.add h2).congr_deriv ?_
    simp only [id]
    rw [show piece k m (d + 1) i t = (t - k i) / (k (i + (d + 1)) - k i) * piece k m d i t +
      (k (i + (d + 1) + 1) - t) / (k (i + (d + 1) + 1) - k (i + 1)) * piece k m d (i + 1) t from rfl,
      show piece k m (d + 1) (i + 1) t = (t - k (i + 1)) / (k (i + 1 + (d + 1)) - k (i + 1)) * piece k m d (i + 1) t +
      (k (i + 1 + (d + 1) + 1) - t) / (k (i + 1 + (d + 1) + 1) - k (i + 1 + 1)) * piece k m d (i + 1 + 1) t from rfl]
    have n1 : i + 1 + (d + 1) = i + (d + 1) + 1 := by omega
    have n2 : i + (d + 1 + 1) = i + (d + 1) + 1 := by omega
    have n3 : i + 1 + (d + 1) + 1 = i + (d + 1) + 1 + 1 := by omega
    have n4 : i + (d + 1 + 1) + 1 = i + (d + 1) + 1 + 1 := by omega
    simp only [n1, n2]
    have m1 : k i ≤ k (i + 1) := hk (by omega)
    have m2 : k (i + 1) ≤ k (i + (d + 1) + 1) := hk (by omega)
    have m3 : k (i + (d + 1) + 1) ≤ k (i + (d + 1) + 1 + 1) := hk (by omega)
    generalize k (i + (d + 1) + 1 + 1) = k4 at *
    generalize k (i + (d + 1) + 1) = k3 at *
    generalize k (i + (d + 1)) = k2 at *
    generalize k (i + 1 + 1) = k1' at *
    generalize k (i + 1) = k1 at *
    generalize k i = k0 at *
    generalize piece k m d i t = P0
    generalize piece k m d (i + 1) t = P1
    generalize piece k m d (i + 1 + 1) t = P2
    push_cast
    by_cases z : k3 - k1 = 0
    · simp only [z, div_zero, zero_mul, zero_sub, sub_zero, add_zero, zero_add]
      ring
    · have z1 : k3 - k0 ≠ 0 := by
        intro h; apply z; apply le_antisymm <;> linarith
      have z2 : k4 - k1 ≠ 0 := by
        intro h; apply z; apply le_antisymm <;> linarith
      by_cases w0 : k2 - k0 = 0 <;> by_cases w2 : k4 - k1' = 0
      · simp only [w0, w2, div_zero, zero_mul]
        field_simp
        ring
      · simp only [w0, div_zero, zero_mul]
        field_simp
        ring
      · simp only [w2, div_zero, zero_mul]
        field_simp
        ring
      · field_simp
        ring

/-! ### C25 -/

/-- The number `eval` returns (0 where it raises). -/
noncomputable def Basis.value (B : Basis ℝ) (i : Nat) (t : ℝ) : ℝ :=
  match B.eval i t with
  | .ok v => v
  | .error _ => 0

/-- Inner knots are repeated at most `degree` times. -/
def Basis.SimpleInner (B : Basis ℝ) : Prop := ∀ i, 0 < i → i < B.size → B.k i < B.k (i + B.degree)

theorem Basis.Valid.value_eq {B : Basis ℝ} (hB : B.Valid) {i : Nat} (hi : i < B.size) (t : ℝ) :
    B.value i t = B.val i t := by
  unfold Basis.value; rw [hB.eval_eq hi]

/-- The value of `eval_diff` away from the upper end. -/
theorem Basis.Valid.evalDiff_eq {B : Basis ℝ} (hB : B.Valid) (hd : 0 < B.degree) (hs : B.SimpleInner) {i : Nat}
    (hi : i < B.size) {t : ℝ} (ht : t < B.hi) :
    B.evalDiff i t = .ok (some ((B.degree : ℝ) * (basisFn B.kx (B.degree - 1) i t / (B.kx (i + B.degree) - B.kx i) -
      basisFn B.kx (B.degree - 1) (i + 1) t / (B.kx (i + B.degree + 1) - B.kx (i + 1))))) := by
  have hse := hB.size_eq
  unfold Basis.evalDiff
  rw [if_pos hi]
  simp only
  rw [if_neg (fun h => absurd h.2 ht.ne), if_neg (fun h => absurd h.2 ht.ne)]
  congr 1
  have a1 : (if 0 < i then npDiv ((B.degree : ℝ) * B.basis (B.degree - 1) i t) (B.k (i + B.degree) - B.k i) else some 0) =
      some ((B.degree : ℝ) * basisFn B.kx (B.degree - 1) i t / (B.kx (i + B.degree) - B.kx i)) := by
    split
    · rename_i h
      have := hs i h hi
      rw [npDiv, if_neg (sub_pos.2 this).ne', basis_kx B _ _ _ (by omega), kx_eq B (by omega), kx_eq B (by omega)]
    · rename_i h
      have : i = 0 := by omega
      subst this
      rw [hB.kx_lo (by omega), hB.kx_lo (by omega), sub_self, div_zero]
  have a2 : (if i < B.size - 1 then npDiv ((B.degree : ℝ) * B.basis (B.degree - 1) (i + 1) t)
      (B.k (i + B.degree + 1) - B.k (i + 1)) else some 0) =
      some ((B.degree : ℝ) * basisFn B.kx (B.degree - 1) (i + 1) t / (B.kx (i + B.degree + 1) - B.kx (i + 1))) := by
    split
    · rename_i h
      have := hs (i + 1) (by omega) (by omega)
      rw [show i + 1 + B.degree = i + B.degree + 1 by omega] at this
      rw [npDiv, if_neg (sub_pos.2 this).ne', basis_kx B _ _ _ (by omega), kx_eq B (by omega), kx_eq B (by omega)]
    · rename_i h
      rw [hB.kx_hi (by omega), hB.kx_hi (by omega), sub_self, div_zero]
  rw [a1, a2]
  simp only [Option.bind_some, Option.map_some]
  congr 1
  ring

/-- C25. On the domain without its upper end `eval_diff` returns the derivative of `eval` from the right; strictly inside
a knot interval it is the two-sided derivative. -/
theorem eval_diff_is_derivative (B : Basis ℝ) (hB : B.Valid) (hd : 0 < B.degree) (hs : B.SimpleInner) (i : Nat)
    (hi : i < B.size) (t : ℝ) (h1 : B.lo ≤ t) (h2 : t < B.hi) :
    ∃ D, B.evalDiff i t = .ok (some D) ∧ HasDerivWithinAt (B.value i) D (Set.Ici t) t ∧
      ((∀ q ∈ B.knots, q ≠ t) → HasDerivAt (B.value i) D t) := by
  have hse := hB.size_eq
  obtain ⟨r, _, hr, r1, r2, _⟩ := hB.find ⟨h1, h2.le⟩
  have r2 := r2 h2
  obtain ⟨p, hp⟩ : ∃ p, B.degree = p + 1 := ⟨B.degree - 1, by omega⟩
  set m := r + B.degree with hm
  refine ⟨_, hB.evalDiff_eq hd hs hi h2, ?_⟩
  have hder := piece_hasDeriv B.kx hB.mono m t p i
  have e1 : B.degree - 1 = p := by omega
  have hDeq : (B.degree : ℝ) * (basisFn B.kx (B.degree - 1) i t / (B.kx (i + B.degree) - B.kx i) -
      basisFn B.kx (B.degree - 1) (i + 1) t / (B.kx (i + B.degree + 1) - B.kx (i + 1))) =
      ((p + 1 : ℕ) : ℝ) * (piece B.kx m p i t / (B.kx (i + (p + 1)) - B.kx i) -
        piece B.kx m p (i + 1) t / (B.kx (i + (p + 1) + 1) - B.kx (i + 1))) := by
    rw [e1, basisFn_eq_piece B.kx hB.mono m t r1 r2, basisFn_eq_piece B.kx hB.mono m t r1 r2, hp]
  rw [hDeq]
  -- the function agrees with the piece on the interval
  have hagree : ∀ s, B.kx m ≤ s → s < B.kx (m + 1) → B.value i s = piece B.kx m (p + 1) i s := by
    intro s s1 s2
    have : s < B.hi := lt_of_lt_of_le s2 (hB.kx_le_hi _)
    rw [hB.value_eq hi, Basis.val, if_neg (fun h => absurd h.2 this.ne), hp, basisFn_eq_piece B.kx hB.mono m s s1 s2]
  constructor
  · refine (hder.hasDerivWithinAt).congr_of_eventuallyEq ?_ (hagree t r1 r2)
    rw [Filter.EventuallyEq, eventually_nhdsWithin_iff]
    filter_upwards [Iio_mem_nhds r2] with s hs hs'
    exact hagree s (le_trans r1 hs') hs
  · intro hq
    have hlt : B.kx m < t := by
      refine lt_of_le_of_ne r1 ?_
      have hie := hB.nInt_eq
      rw [kx_eq B (by omega)]
      apply hq
      unfold Basis.k
      rw [List.getD_eq_getElem?_getD, List.getElem?_eq_getElem (by omega)]
      exact List.getElem_mem _
    refine hder.congr_of_eventuallyEq ?_
    rw [Filter.EventuallyEq]
    filter_upwards [Ioo_mem_nhds hlt r2] with s hs'
    exact hagree s hs'.1.le hs'.2

/-- C25, upper end of the domain: `eval_diff` returns the derivative from the left. -/
theorem eval_diff_at_end (B : Basis ℝ) (hB : B.Valid) (hd : 0 < B.degree) (hs : B.SimpleInner) (i : Nat)
    (hi : i < B.size) : ∃ D, B.evalDiff i B.hi = .ok (some D) ∧ HasDerivWithinAt (B.value i) D (Set.Iic B.hi) B.hi := by
  have hse := hB.size_eq
  have hie := hB.nInt_eq
  have hip := hB.nInt_pos
  obtain ⟨p, hp⟩ : ∃ p, B.degree = p + 1 := ⟨B.degree - 1, by omega⟩
  have e1 : B.degree - 1 = p := by omega
  -- the last interval
  set m := B.size - 1 with hm
  have hklt : B.kx m < B.hi := by
    have := hs m (by omega) (by omega)
    rw [hB.k_stop (i := m + B.degree) (by omega) (by omega)] at this
    rw [kx_eq B (by omega)]; exact this
  have hkend : ∀ d, ∀ j, m < j → j ≤ m + d + 1 → B.kx j = B.hi := fun d j h _ => hB.kx_hi (by omega)
  have hpe : ∀ d j, piece B.kx m d j B.hi = if j = m then 1 else 0 := fun d => piece_end B.kx m B.hi hklt d (hkend d)
  have hder := piece_hasDeriv B.kx hB.mono m B.hi p i
  rw [hpe, hpe] at hder
  refine ⟨((p + 1 : ℕ) : ℝ) * ((if i = m then 1 else 0) / (B.kx (i + (p + 1)) - B.kx i) -
    (if i + 1 = m then 1 else 0) / (B.kx (i + (p + 1) + 1) - B.kx (i + 1))), ?_, ?_⟩
  rotate_left
  · refine (hder.hasDerivWithinAt).congr_of_eventuallyEq ?_ ?_
    · rw [Filter.EventuallyEq, eventually_nhdsWithin_iff]
      filter_upwards [Ioi_mem_nhds hklt] with s s1 s2
      rcases lt_or_eq_of_le (show s ≤ B.hi from s2) with h | h
      · rw [hB.value_eq hi, Basis.val, if_neg (fun h' => absurd h'.2 h.ne), hp]
        exact basisFn_eq_piece B.kx hB.mono m s (le_of_lt s1) (by rw [hB.kx_hi (by omega)]; exact h) _ _
      · rw [h, hB.value_eq hi, hB.eval_hi, hpe]
    · rw [hB.value_eq hi, hB.eval_hi, hpe]
  · unfold Basis.evalDiff
    rw [if_pos hi]
    simp only
    by_cases c2 : i + 2 = B.size
    · rw [if_pos ⟨c2, trivial⟩, if_neg (by omega), if_pos (by omega)]
      have hne : B.k (i + B.degree + 1) - B.k (i + 1) ≠ 0 := by
        rw [← kx_eq B (by omega), ← kx_eq B (by omega), hB.kx_hi (by omega), show i + 1 = m by omega]
        exact (sub_pos.2 hklt).ne'
      rw [npDiv, if_neg hne, Option.map_some, kx_eq B (i := i + (p + 1) + 1) (by omega), kx_eq B (i := i + 1) (by omega),
        ← hp]
      congr 2
      ring
    · rw [if_neg (by omega)]
      by_cases c1 : i + 1 = B.size
      · rw [if_pos ⟨c1, trivial⟩, if_pos (by omega), if_neg (by omega)]
        have hne : B.k (i + B.degree) - B.k i ≠ 0 := by
          rw [← kx_eq B (by omega), ← kx_eq B (by omega), hB.kx_hi (by omega), show i = m by omega]
          exact (sub_pos.2 hklt).ne'
        rw [npDiv, if_neg hne, kx_eq B (i := i + (p + 1)) (by omega), kx_eq B (i := i) (by omega), ← hp]
        congr 2
        ring
      · rw [if_neg (fun h => c1 h.1), if_neg (show ¬ i = m by omega), if_neg (show ¬ i + 1 = m by omega)]
        have z : ∀ j, B.basis (B.degree - 1) j B.hi = 0 ∨ B.knots.length ≤ j + (B.degree - 1) + 1 := by
          intro j
          by_cases hj : j + (B.degree - 1) + 1 < B.knots.length
          · left
            rw [basis_kx B _ _ _ hj]
            exact basisFn_zero_out _ hB.mono _ _ _ (Or.inr (hB.kx_le_hi _))
          · right; omega
        have z1 := (z i).resolve_right (by omega)
        have z2 := (z (i + 1)).resolve_right (by omega)
        rw [z1, z2]
        have a2 := hs (i + 1) (by omega) (by omega)
        rw [show i + 1 + B.degree = i + B.degree + 1 by omega] at a2
        rw [if_pos (show i < B.size - 1 by omega)]
        simp only [npDiv, mul_zero, zero_div, sub_self]
        rw [if_neg (sub_pos.2 a2).ne']
        by_cases hi0 : 0 < i
        · rw [if_pos hi0, if_neg (sub_pos.2 (hs i hi0 hi)).ne']; simp
        · rw [if_neg hi0]; simp

/-- C25 fails for an inner knot of multiplicity `degree+1`, which the constructor accepts: nan although `eval` is
differentiable there. -/
theorem eval_diff_nan : Basis.init 1 [(0 : ℚ), 0, 1, 1, 2, 2] = .ok ⟨1, [0, 0, 1, 1, 2, 2]⟩ ∧
    (⟨1, [0, 0, 1, 1, 2, 2]⟩ : Basis ℚ).evalDiff 1 (1 / 2) = .ok none ∧
    (⟨1, [0, 0, 1, 1, 2, 2]⟩ : Basis ℚ).eval 1 (1 / 2) = .ok (1 / 2) := by
  refine ⟨?_, ?_, ?_⟩ <;> decide +kernel

/-! ### C19, derivatives -/

/-- C19. For quadratic bases `_eval_diff_vector_deg_2` agrees with `eval_diff_vector` on the whole domain, and the three
derivatives sum to 0. -/
theorem fast_diff_deg2 (B : Basis ℝ) (hB : B.Valid) (h2d : B.degree = 2) (hs : B.SimpleInner) (t : ℝ) (ht : B.Dom t) :
    ∃ r, B.findInterval t = .ok r ∧ B.evalDiffVector r t = .ok ((B.evalDiffVector2 r t).map some) ∧
      (B.evalDiffVector2 r t).sum = 0 := by
  obtain ⟨r, hf, hr, h1, h2, h3⟩ := hB.find ht
  have hse := hB.size_eq
  have hie := hB.nInt_eq
  have hvalid := hB
  refine ⟨r, hf, ?_⟩
  rw [h2d] at h1 h2 hse hie
  have m1 : B.kx (r + 1) ≤ B.kx (r + 2) := hB.mono (by omega)
  have m3 : B.kx (r + 3) ≤ B.kx (r + 4) := hB.mono (by omega)
  have hne : B.kx (r + 2) < B.kx (r + 3) := by
    rcases lt_or_eq_of_le ht.2 with h | h
    · exact lt_of_le_of_lt h1 (h2 h)
    · have h3 := h3 h
      have := hs (r + 2) (by omega) (by omega)
      rw [h2d] at this
      rw [kx_eq B (by omega), kx_eq B (by omega), hB.k_stop (i := r + 3) (by omega) (by omega)]
      rw [hB.k_stop (i := r + 2 + 2) (by omega) (by omega)] at this
      exact this
  have d32 : B.kx (r + 3) - B.kx (r + 2) ≠ 0 := (sub_pos.2 hne).ne'
  have d31 : B.kx (r + 3) - B.kx (r + 1) ≠ 0 := (sub_pos.2 (lt_of_le_of_lt m1 hne)).ne'
  have d42 : B.kx (r + 4) - B.kx (r + 2) ≠ 0 := (sub_pos.2 (lt_of_lt_of_le hne m3)).ne'
  have hsum : (B.evalDiffVector2 r t).sum = 0 := by
    simp only [Basis.evalDiffVector2]
    rw [← kx_eq B (i := r + 1) (by omega), ← kx_eq B (i := r + 2) (by omega), ← kx_eq B (i := r + 3) (by omega),
      ← kx_eq B (i := r + 4) (by omega)]
    simp only [List.sum_cons, List.sum_nil]
    field_simp
    ring
  refine ⟨?_, hsum⟩
  have key : ∀ j, j < 3 → B.evalDiff (r + j) t = .ok ((B.evalDiffVector2 r t)[j]?) := by
    intro j hj
    simp only [Basis.evalDiffVector2]
    rw [← kx_eq B (i := r + 1) (by omega), ← kx_eq B (i := r + 2) (by omega), ← kx_eq B (i := r + 3) (by omega),
      ← kx_eq B (i := r + 4) (by omega)]
    rcases lt_or_eq_of_le ht.2 with h | h
    · have h2 := h2 h
      rw [hB.evalDiff_eq (by omega) hs (by omega) h]
      congr 1
      have b0 : ∀ i, i ≠ r + 2 → basisFn B.kx 0 i t = 0 := by
        intro i hi
        apply basisFn_zero_out _ hB.mono
        rcases Nat.lt_or_gt_of_ne hi with hh | hh
        · exact Or.inr (le_trans (hB.mono (by omega)) h1)
        · exact Or.inl (lt_of_lt_of_le h2 (hB.mono (by omega)))
      have b1 : basisFn B.kx 0 (r + 2) t = 1 := by simp only [basisFn]; rw [if_pos ⟨h1, h2⟩]
      rw [h2d]
      have hj : j = 0 ∨ j = 1 ∨ j = 2 := by omega
      rcases hj with rfl | rfl | rfl
      · simp only [Nat.add_zero, basisFn_succ, b0 r (by omega), b0 (r + 1) (by omega), b1, Nat.add_assoc, Nat.reduceAdd,
          mul_zero, zero_add, mul_one, Nat.reduceSub, List.getElem?_cons_zero, zero_div]
        congr 1
        push_cast
        field_simp
        ring
      · simp only [basisFn_succ, b0 (r + 1) (by omega), b0 (r + 3) (by omega), b1, Nat.add_assoc, Nat.reduceAdd,
          mul_zero, zero_add, mul_one, add_zero, Nat.reduceSub, List.getElem?_cons_succ, List.getElem?_cons_zero]
        congr 1
        push_cast
        field_simp
        ring
      · simp only [basisFn_succ, b0 (r + 4) (by omega), b0 (r + 3) (by omega), b1, Nat.add_assoc, Nat.reduceAdd,
          mul_zero, zero_add, mul_one, add_zero, Nat.reduceSub, List.getElem?_cons_succ, List.getElem?_cons_zero,
          zero_div, sub_zero]
        congr 1
        push_cast
        field_simp
    · subst h
      have h3 := h3 rfl
      have es : B.size = r + 3 := by omega
      have k3 : B.kx (r + 3) = B.hi := hB.kx_hi (by omega)
      have k4 : B.kx (r + 4) = B.hi := hB.kx_hi (by omega)
      have K3 : B.k (r + 3) = B.hi := hB.k_stop (by omega) (by omega)
      have K4 : B.k (r + 4) = B.hi := hB.k_stop (by omega) (by omega)
      have K2 : B.k (r + 2) = B.kx (r + 2) := (kx_eq B (by omega)).symm
      rw [k3] at d32 d31
      rw [k3, k4]
      have hj : j = 0 ∨ j = 1 ∨ j = 2 := by omega
      unfold Basis.evalDiff
      rw [if_pos (by omega)]
      simp only
      rw [es, h2d]
      rcases hj with rfl | rfl | rfl
      · rw [if_neg (by omega), if_neg (by omega), if_pos (show r + 0 < r + 3 - 1 by omega)]
        have z1 : B.basis (2 - 1) (r + 0) B.hi = 0 := by
          rw [basis_kx B _ _ _ (by omega)]
          exact basisFn_zero_out _ hB.mono _ _ _ (Or.inr (hB.kx_le_hi _))
        have z2 : B.basis (2 - 1) (r + 0 + 1) B.hi = 0 := by
          rw [basis_kx B _ _ _ (by omega)]
          exact basisFn_zero_out _ hB.mono _ _ _ (Or.inr (hB.kx_le_hi _))
        have q2 := hs (r + 0 + 1) (by omega) (by omega)
        rw [h2d, show r + 0 + 1 + 2 = r + 0 + 2 + 1 by omega] at q2
        rw [z1, z2]
        simp only [npDiv, mul_zero, zero_div, sub_self, List.getElem?_cons_zero]
        rw [if_neg (sub_pos.2 q2).ne']
        by_cases hr0 : 0 < r + 0
        · have q1 := hs (r + 0) hr0 (by omega)
          rw [h2d] at q1
          rw [if_pos hr0, if_neg (sub_pos.2 q1).ne']; simp
        · rw [if_neg hr0]; simp
      · rw [if_pos ⟨by omega, trivial⟩]
        simp only [npDiv, show r + 1 + 2 + 1 = r + 4 by omega, show r + 1 + 1 = r + 2 by omega, K4, K2,
          List.getElem?_cons_succ, List.getElem?_cons_zero]
        rw [if_neg d32, Option.map_some]
        congr 2
        push_cast
        field_simp
        ring
      · rw [if_neg (by omega), if_pos ⟨by omega, trivial⟩]
        simp only [npDiv, show r + 2 + 2 = r + 4 by omega, K4, K2, List.getElem?_cons_succ, List.getElem?_cons_zero]
        rw [if_neg d32]
        congr 2
        push_cast
        field_simp
  unfold Basis.evalDiffVector
  rw [h2d]
  have hl : (List.range (2 + 1)) = [0, 1, 2] := rfl
  rw [hl, mapM_ok (fun j => B.evalDiff (r + j) t) (fun j => (B.evalDiffVector2 r t)[j]?)]
  · simp [Basis.evalDiffVector2]
  · intro j hj
    simp only [List.mem_cons, List.not_mem_nil, or_false] at hj
    exact key j (by omega)

/-! ### Non-vacuity -/

/-- An equidistant quadratic basis has simple inner knots. -/
example : ∃ B : Basis ℝ, B.Valid ∧ B.degree = 2 ∧ B.SimpleInner ∧ B.size = 4 := by
  obtain ⟨B, _, hv, hd, hl, hs, _, hlo, hhi, hk⟩ := equidistant_valid (K := ℝ) 2 2 1 4 (by norm_num) (by norm_num)
  refine ⟨B, hv, hd, ?_, hs⟩
  intro i hi hi'
  rw [hs] at hi'
  have k1 : B.k 1 = 1 := by rw [hv.k_start (by omega), hlo]
  have k2 : B.k 2 = 1 := by rw [hv.k_start (by omega), hlo]
  have k3 : B.k 3 = 1 + 3 / 2 := by have := hk 1 (by omega); norm_num at this; rw [this]; norm_num
  have k4 : B.k 4 = 4 := by rw [hv.k_stop (by omega) (by omega), hhi]
  have k5 : B.k 5 = 4 := by rw [hv.k_stop (by omega) (by omega), hhi]
  rw [hd]
  have : i = 1 ∨ i = 2 ∨ i = 3 := by omega
  rcases this with rfl | rfl | rfl
  · rw [k1, k3]; norm_num
  · rw [k2, k4]; norm_num
  · rw [k3, k5]; norm_num

end Verif.Spline
