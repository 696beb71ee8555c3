import Verif.Spline.Spec
import Verif.Spline.Cox
/-! Lemmas connecting the model of `SplineBasis` with the recursion over a monotone knot function. -/
namespace Verif.Spline
open Finset

set_option linter.unusedSectionVars false
variable {K : Type} [Field K] [LinearOrder K] [IsStrictOrderedRing K]

theorem mapM_ok {α β : Type} (f : α → Except Err β) (g : α → β) (l : List α) (h : ∀ a ∈ l, f a = .ok (g a)) :
    l.mapM f = .ok (l.map g) := by
  induction l with
  | nil => rfl
  | cons a as ih =>
    rw [List.mapM_cons, h a (by simp), ih (fun b hb => h b (by simp [hb]))]
    rfl

/-- The knots continued by the last one. -/
def Basis.kx (B : Basis K) (i : Nat) : K := if i < B.knots.length then B.k i else B.k (B.knots.length - 1)

theorem kx_eq (B : Basis K) {i : Nat} (h : i < B.knots.length) : B.kx i = B.k i := by simp [Basis.kx, h]

theorem k_mono (B : Basis K) (hs : B.knots.Pairwise (· ≤ ·)) {i j : Nat} (hij : i ≤ j) (hj : j < B.knots.length) :
    B.k i ≤ B.k j := by
  rcases Nat.lt_or_eq_of_le hij with h | h
  · have := List.pairwise_iff_getElem.1 hs i j (by omega) hj h
    simp only [Basis.k, List.getD_eq_getElem?_getD]
    rw [List.getElem?_eq_getElem (by omega), List.getElem?_eq_getElem hj]
    exact this
  · rw [h]

theorem kx_mono (B : Basis K) (hs : B.knots.Pairwise (· ≤ ·)) (hn : 0 < B.knots.length) : Monotone B.kx := by
  intro i j hij
  unfold Basis.kx
  by_cases hj : j < B.knots.length
  · rw [if_pos (by omega), if_pos hj]
    exact k_mono B hs hij hj
  · rw [if_neg hj]
    split
    · exact k_mono B hs (by omega) (by omega)
    · exact le_refl _

theorem basis_kx (B : Basis K) (d i : Nat) (t : K) (h : i + d + 1 < B.knots.length) :
    B.basis d i t = basisFn B.kx d i t := by
  apply basisFn_congr
  intro j _ hj
  rw [kx_eq B (by omega)]

/-- The value `eval` returns. -/
def Basis.val (B : Basis K) (i : Nat) (t : K) : K :=
  if i = B.size - 1 ∧ t = B.hi then 1 else basisFn B.kx B.degree i t

theorem sum_shift (f : Nat → K) (r n : Nat) : ∑ i ∈ Ico r (r + n), f i = ∑ j ∈ range n, f (r + j) := by
  rw [sum_Ico_eq_sum_range, Nat.add_sub_cancel_left]

namespace Basis.Valid

variable {B : Basis K} (hB : B.Valid)
include hB

theorem pos : 0 < B.knots.length := by have := hB.len; omega

theorem size_eq : B.size + B.degree + 1 = B.knots.length := by have := hB.len; unfold Basis.size; omega

theorem nInt_eq : B.nIntervals + B.degree = B.size := by
  have := hB.len; unfold Basis.nIntervals Basis.size; omega

theorem nInt_pos : 0 < B.nIntervals := by
  have := hB.len; unfold Basis.nIntervals Basis.size; omega

theorem mono : Monotone B.kx := kx_mono B hB.sorted hB.pos

theorem k_start {i : Nat} (h : i ≤ B.degree) : B.k i = B.lo := by
  simp only [Basis.k, Basis.lo, List.getD_eq_getElem?_getD, hB.start i h, hB.start _ (le_refl _)]

theorem k_stop {i : Nat} (h : B.size ≤ i) (h' : i < B.knots.length) : B.k i = B.hi := by
  have e := hB.size_eq
  have a := hB.stop (B.knots.length - 1 - i) (by omega)
  have b := hB.stop B.degree (le_refl _)
  have hl := hB.len
  rw [List.getElem?_reverse (by omega)] at a b
  rw [List.getElem?_reverse hB.pos] at a b
  have e1 : B.knots.length - 1 - (B.knots.length - 1 - i) = i := by omega
  have e2 : B.knots.length - 1 - B.degree = B.knots.length - B.degree - 1 := by omega
  rw [e1] at a
  rw [e2] at b
  simp only [Basis.k, Basis.hi, List.getD_eq_getElem?_getD, a, b]

theorem hi_eq : B.hi = B.k B.size := (hB.k_stop (le_refl _) (by have := hB.size_eq; omega)).symm

theorem kx_hi {i : Nat} (h : B.size ≤ i) : B.kx i = B.hi := by
  unfold Basis.kx
  have := hB.size_eq
  split
  · exact hB.k_stop h (by omega)
  · exact hB.k_stop (by omega) (by omega)

theorem kx_le_hi (i : Nat) : B.kx i ≤ B.hi := by
  rw [← hB.kx_hi (i := max i B.size) (by omega)]
  exact hB.mono (by omega)

theorem kx_lo {i : Nat} (h : i ≤ B.degree) : B.kx i = B.lo := by
  have := hB.len
  rw [kx_eq B (by omega), hB.k_start h]

/-- the found interval (C17 in terms of `kx`) -/
theorem find {t : K} (ht : B.Dom t) : ∃ r, B.findInterval t = .ok r ∧ r < B.nIntervals ∧
    B.kx (r + B.degree) ≤ t ∧ (t < B.hi → t < B.kx (r + B.degree + 1)) ∧
    (t = B.hi → r + 1 = B.nIntervals) := by
  have hl := hB.len
  have hse := hB.size_eq
  have hie := hB.nInt_eq
  have hip := hB.nInt_pos
  obtain ⟨ht1, ht2⟩ := ht
  set s := (B.knots.take (B.knots.length - B.degree - 1)).drop B.degree with hs
  have hlen : s.length = B.nIntervals := by
    rw [hs, List.length_drop, List.length_take]; omega
  have hget : ∀ i, i < B.nIntervals → s[i]? = some (B.kx (i + B.degree)) := by
    intro i hi
    rw [hs, List.getElem?_drop, List.getElem?_take, if_pos (by omega), kx_eq B (by omega)]
    unfold Basis.k
    rw [List.getD_eq_getElem?_getD, Nat.add_comm, List.getElem?_eq_getElem (by omega)]
    simp
  -- the count
  have hc : ∀ (l : List K), (∀ i, i < searchRight l t → ∃ x, l[i]? = some x ∧ x ≤ t) ∧
      (∀ x, l[searchRight l t]? = some x → t < x) ∧ searchRight l t ≤ l.length := by
    intro l
    induction l with
    | nil => simp [searchRight]
    | cons a as ih =>
      obtain ⟨i1, i2, i3⟩ := ih
      unfold searchRight at *
      by_cases ha : a ≤ t
      · simp only [List.takeWhile_cons, ha, decide_true, if_true, List.length_cons]
        refine ⟨?_, ?_, by omega⟩
        · intro i hi
          cases i with
          | zero => exact ⟨a, rfl, ha⟩
          | succ i => simpa using i1 i (by omega)
        · simpa using i2
      · simp only [List.takeWhile_cons, ha, decide_false, List.length_cons]
        refine ⟨by simp, ?_, by simp⟩
        simpa using ha
  obtain ⟨c1, c2, c3⟩ := hc s
  set c := searchRight s t with hcdef
  have cpos : c ≠ 0 := by
    intro h0
    have := c2 (B.kx B.degree) (by rw [h0, hget 0 hip]; simp)
    rw [hB.kx_lo (le_refl _)] at this
    exact absurd this (not_lt.2 ht1)
  have hfi : B.findInterval t = .ok (c - 1) := by
    unfold Basis.findInterval
    simp only
    rw [← hs, ← hcdef, if_neg (by omega)]
    congr 1
    omega
  refine ⟨c - 1, hfi, by omega, ?_, ?_, ?_⟩
  · obtain ⟨x, hx, hx'⟩ := c1 (c - 1) (by omega)
    rw [hget _ (by omega)] at hx
    cases hx
    exact hx'
  · intro hlt
    by_cases hcn : c = B.nIntervals
    · rw [hB.kx_hi (by omega)]; exact hlt
    · have := c2 _ (hget c (by omega))
      have e : c - 1 + B.degree + 1 = c + B.degree := by omega
      rw [e]; exact this
  · intro he
    by_contra hcn
    have := c2 _ (hget c (by omega))
    exact absurd (hB.kx_le_hi (c + B.degree)) (not_le.2 (he ▸ this))

/-- value of `eval` -/
theorem eval_eq {i : Nat} (hi : i < B.size) (t : K) :
    B.eval i t = .ok (B.val i t) := by
  have := hB.size_eq
  unfold Basis.eval Basis.val
  rw [if_pos hi]
  split
  · rfl
  · rw [basis_kx B _ _ _ (by omega)]

/-- the values used in the sums -/
theorem eval_nonneg (i : Nat) (t : K) :
    0 ≤ B.val i t := by
  unfold Basis.val
  split
  · exact zero_le_one
  · exact basisFn_nonneg _ hB.mono _ _ _

theorem eval_hi {i : Nat} : B.val i B.hi = if i = B.size - 1 then 1 else 0 := by
  unfold Basis.val
  by_cases h : i = B.size - 1
  · simp [h]
  · simp only [h, false_and, if_false]
    exact basisFn_zero_out _ hB.mono _ _ _ (Or.inr (hB.kx_le_hi _))

/-- The values of the window that `findInterval` gives sum to one. -/
theorem window_sum {t : K} {r : Nat} (h1 : B.kx (r + B.degree) ≤ t)
    (h2 : t < B.hi → t < B.kx (r + B.degree + 1)) (h3 : t = B.hi → r + 1 = B.nIntervals) (ht : t ≤ B.hi) :
    ∑ j ∈ range (B.degree + 1), B.val (r + j) t = 1 := by
  have hie := hB.nInt_eq
  rcases lt_or_eq_of_le ht with h | h
  · have := sum_window B.kx hB.mono t (r + B.degree) h1 (h2 h) B.degree (by omega)
    rw [← this]
    refine sum_congr rfl fun j _ => ?_
    unfold Basis.val
    rw [if_neg (by rintro ⟨_, e⟩; exact absurd e h.ne)]
    congr 1
    omega
  · subst h
    have h3 := h3 rfl
    rw [sum_congr rfl (fun j _ => hB.eval_hi (i := r + j)), sum_range_succ, sum_eq_zero, zero_add, if_pos (by omega)]
    intro j hj
    have := mem_range.1 hj
    rw [if_neg (by omega)]

/-- Outside the window the values vanish. -/
theorem out_zero {t : K} {r i : Nat} (h1 : B.kx (r + B.degree) ≤ t)
    (h2 : t < B.hi → t < B.kx (r + B.degree + 1)) (h3 : t = B.hi → r + 1 = B.nIntervals) (ht : t ≤ B.hi)
    (hi : i < r ∨ r + B.degree < i) :
    B.val i t = 0 := by
  have hie := hB.nInt_eq
  rcases lt_or_eq_of_le ht with h | h
  · unfold Basis.val
    rw [if_neg (by rintro ⟨_, e⟩; exact absurd e h.ne)]
    apply basisFn_zero_out _ hB.mono
    rcases hi with hi | hi
    · exact Or.inr (le_trans (hB.mono (by omega)) h1)
    · exact Or.inl (lt_of_lt_of_le (h2 h) (hB.mono (by omega)))
  · subst h
    have h3 := h3 rfl
    rw [hB.eval_hi, if_neg (by omega)]

/-- A weighted sum over all functions is the sum over the window. -/
theorem full_sum {t : K} {r : Nat} (hr : r < B.nIntervals) (h1 : B.kx (r + B.degree) ≤ t)
    (h2 : t < B.hi → t < B.kx (r + B.degree + 1)) (h3 : t = B.hi → r + 1 = B.nIntervals) (ht : t ≤ B.hi)
    (c : Nat → K) :
    ∑ i ∈ range B.size, c i * B.val i t =
    ∑ j ∈ range (B.degree + 1), c (r + j) * B.val (r + j) t := by
  have hie := hB.nInt_eq
  rw [← sum_shift (fun i => c i * B.val i t)]
  symm
  apply sum_subset
  · intro i hi
    have := mem_Ico.1 hi
    exact mem_range.2 (by omega)
  · intro i hi hni
    have h := mem_range.1 hi
    rw [hB.out_zero h1 h2 h3 ht ?_, mul_zero]
    by_contra hc
    exact hni (mem_Ico.2 (by omega))

end Basis.Valid

end Verif.Spline
