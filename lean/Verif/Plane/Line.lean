import Verif.Plane.Model
import Mathlib.Tactic.Linarith
import Mathlib.Tactic.LinearCombination
import Mathlib.Tactic.FieldSimp
import Mathlib.Tactic.Ring
import Mathlib.Tactic.NormNum
import Mathlib.Algebra.Order.Field.Rat
import Mathlib.Algebra.Order.Ring.Abs

/-! Projection of points on segments and intersection of segments. -/

namespace Verif.Plane
open Verif.Decomp (Err)

section
variable {K : Type} [Field K] [LinearOrder K] [IsStrictOrderedRing K]

/-- Square of the distance of two points. -/
def dist2 (p q : K × K) : K := (p.1 - q.1) * (p.1 - q.1) + (p.2 - q.2) * (p.2 - q.2)

omit [LinearOrder K] [IsStrictOrderedRing K] in
theorem dist2_param (v o p : K × K) (s t : K) :
    dist2 p (parametric o v s) - dist2 p (parametric o v t)
      = (s - t) * ((s + t) * (v.1 * v.1 + v.2 * v.2) - 2 * ((p.1 - o.1) * v.1 + (p.2 - o.2) * v.2)) := by
  simp only [dist2, parametric]; ring

theorem sq_pos {v : K × K} (h : v.1 * v.1 + v.2 * v.2 ≠ 0) : 0 < v.1 * v.1 + v.2 * v.2 :=
  lt_of_le_of_ne (add_nonneg (mul_self_nonneg _) (mul_self_nonneg _)) (Ne.symm h)

/-- The projection parameter is in the segment and its point is nearer than every other point of the segment. -/
theorem project_nearest {v o p : K × K} {t : K} (h : projectPoint v o p = .ok t) :
    0 ≤ t ∧ t ≤ 1 ∧ ∀ s, 0 ≤ s → s ≤ 1 → s ≠ t → dist2 p (parametric o v t) < dist2 p (parametric o v s) := by
  unfold projectPoint at h
  dsimp only at h
  split at h
  · cases h
  rename_i hd
  have hp := sq_pos hd
  generalize hD : v.1 * v.1 + v.2 * v.2 = d at *
  generalize hN : (p.1 - o.1) * v.1 + (p.2 - o.2) * v.2 = n at *
  cases h
  refine ⟨le_min (le_max_right _ _) zero_le_one, min_le_right _ _, fun s hs0 hs1 hst => ?_⟩
  rw [← sub_pos, dist2_param, hD, hN]
  have hn : n = n / d * d := by field_simp
  generalize n / d = c at *
  subst hn
  rcases le_total c 0 with hc | hc
  · rw [max_eq_right hc, min_eq_left zero_le_one] at hst ⊢
    have : 0 < s := lt_of_le_of_ne hs0 (Ne.symm hst)
    have e : (s - 0) * ((s + 0) * d - 2 * (c * d)) = s * ((s - 2 * c) * d) := by ring
    rw [e]; exact mul_pos this (mul_pos (by linarith) hp)
  · rw [max_eq_left hc] at hst ⊢
    rcases le_total c 1 with h1 | h1
    · rw [min_eq_left h1] at hst ⊢
      have e : (s - c) * ((s + c) * d - 2 * (c * d)) = (s - c) * (s - c) * d := by ring
      rw [e]; exact mul_pos (mul_self_pos.2 (sub_ne_zero.2 hst)) hp
    · rw [min_eq_right h1] at hst ⊢
      have : s < 1 := lt_of_le_of_ne hs1 hst
      have e : (s - 1) * ((s + 1) * d - 2 * (c * d)) = (1 - s) * ((2 * c - s - 1) * d) := by ring
      rw [e]; exact mul_pos (by linarith) (mul_pos (by linarith) hp)

/-- The projection is defined for all segments that are not a point. -/
theorem project_total (v o p : K × K) : (∃ t, projectPoint v o p = .ok t) ↔ v ≠ (0, 0) := by
  have e : v.1 * v.1 + v.2 * v.2 = 0 ↔ v = (0, 0) := by
    constructor
    · intro h
      have h1 := mul_self_nonneg v.1
      have h2 := mul_self_nonneg v.2
      exact Prod.ext (mul_self_eq_zero.1 (by linarith)) (mul_self_eq_zero.1 (by linarith))
    · rintro rfl; simp
  unfold projectPoint
  dsimp only
  split
  · rename_i h; simp [e.1 h]
  · rename_i h; simp [mt e.2 h]

example : projectPoint (4, 2) (1, 1) ((3 : ℚ), 5) = .ok (4 / 5) := by decide +kernel
example : projectPoint (4, 2) (1, 1) ((-3 : ℚ), 5) = .ok 0 := by decide +kernel

/-! ### Intersection -/

omit [LinearOrder K] [IsStrictOrderedRing K] in
theorem solve2_some [DecidableEq K] {c0 c1 r t : K × K}
    (h : (let d := c0.1 * c1.2 - c1.1 * c0.2
      if d = 0 then none else some ((r.1 * c1.2 - c1.1 * r.2) / d, (c0.1 * r.2 - r.1 * c0.2) / d)) = some t) :
    c0.1 * c1.2 - c1.1 * c0.2 ≠ 0 ∧ t.1 * c0.1 + t.2 * c1.1 = r.1 ∧ t.1 * c0.2 + t.2 * c1.2 = r.2 := by
  dsimp only at h
  split at h
  · cases h
  rename_i hd
  cases h
  refine ⟨hd, ?_, ?_⟩ <;> dsimp only <;> rw [div_mul_eq_mul_div, div_mul_eq_mul_div, ← add_div, div_eq_iff hd] <;> ring

omit [LinearOrder K] [IsStrictOrderedRing K] in
theorem solve2_unique {c0 c1 r t u : K × K} (hd : c0.1 * c1.2 - c1.1 * c0.2 ≠ 0)
    (t1 : t.1 * c0.1 + t.2 * c1.1 = r.1) (t2 : t.1 * c0.2 + t.2 * c1.2 = r.2)
    (u1 : u.1 * c0.1 + u.2 * c1.1 = r.1) (u2 : u.1 * c0.2 + u.2 * c1.2 = r.2) : t = u := by
  refine Prod.ext (mul_right_cancel₀ hd ?_) (mul_right_cancel₀ hd ?_)
  · linear_combination (t1 - u1) * c1.2 - (t2 - u2) * c1.1
  · linear_combination (t2 - u2) * c0.1 - (t1 - u1) * c0.2

/-- Direction from `a` to `b`. -/
def dir (a b : K × K) : K × K := (b.1 - a.1, b.2 - a.2)

/-- The vectors are parallel. -/
def Parallel (u v : K × K) : Prop := u.1 * v.2 = u.2 * v.1

/-- The parameters are more than `eps` inside both segments. -/
def Within (eps : K) (t : K × K) : Prop := (eps < t.1 ∧ t.1 < 1 - eps) ∧ eps < t.2 ∧ t.2 < 1 - eps

omit [IsStrictOrderedRing K] in
/-- Two parameters are returned exactly when the directions are not parallel, the parameters give the same point of both
segments, and both are inside by more than `eps`. -/
theorem intersection_iff (eps : K) (o v a b t : K × K) :
    intersection eps o v a b = some t ↔
      ¬ Parallel v (dir a b) ∧ parametric o v t.1 = parametric a (dir a b) t.2 ∧ Within eps t := by
  have hpar : v.1 * (a.2 - b.2) - (a.1 - b.1) * v.2 ≠ 0 ↔ ¬ Parallel v (dir a b) := by
    rw [not_iff_not, Parallel, dir]
    dsimp only
    constructor <;> intro h <;> linear_combination -h
  have heq : ∀ t : K × K, parametric o v t.1 = parametric a (dir a b) t.2 ↔
      t.1 * v.1 + t.2 * (a.1 - b.1) = a.1 - o.1 ∧ t.1 * v.2 + t.2 * (a.2 - b.2) = a.2 - o.2 := by
    intro t
    simp only [parametric, dir, Prod.mk.injEq]
    constructor
    · rintro ⟨h1, h2⟩; exact ⟨by linear_combination h1, by linear_combination h2⟩
    · rintro ⟨h1, h2⟩; exact ⟨by linear_combination h1, by linear_combination h2⟩
  rw [heq, ← hpar]
  unfold intersection
  constructor
  · intro h
    split at h
    · cases h
    rename_i r hr
    split at h
    · rename_i hin
      cases h
      obtain ⟨hd, h1, h2⟩ := solve2_some hr
      simp only [zero_add] at hin
      exact ⟨hd, ⟨h1, h2⟩, hin⟩
    · cases h
  · rintro ⟨hd, ⟨h1, h2⟩, hin⟩
    have hs : solve2 v (a.1 - b.1, a.2 - b.2) (a.1 - o.1, a.2 - o.2) ≠ none := by
      unfold solve2; dsimp only; rw [if_neg hd]; simp
    obtain ⟨r, hr⟩ := Option.ne_none_iff_exists'.1 hs
    have hr' := solve2_some hr
    have : r = t := solve2_unique (c0 := v) (c1 := (a.1 - b.1, a.2 - b.2)) (r := (a.1 - o.1, a.2 - o.2)) hd hr'.2.1 hr'.2.2 h1 h2
    rw [hr]
    dsimp only
    rw [if_pos (by simp only [zero_add]; rw [this]; exact hin), this]

omit [IsStrictOrderedRing K] in
/-- Nothing is returned exactly when the directions are parallel or no common point is inside both by more than `eps`. -/
theorem intersection_none (eps : K) (o v a b : K × K) :
    intersection eps o v a b = none ↔
      Parallel v (dir a b) ∨ ∀ t, parametric o v t.1 = parametric a (dir a b) t.2 → ¬ Within eps t := by
  rw [Option.eq_none_iff_forall_ne_some]
  constructor
  · intro h
    by_contra hc
    rw [not_or, not_forall] at hc
    obtain ⟨h1, t, ht⟩ := hc
    rw [Classical.not_imp, not_not] at ht
    exact h t ((intersection_iff ..).2 ⟨h1, ht⟩)
  · rintro h t ht
    obtain ⟨h1, h2, h3⟩ := (intersection_iff ..).1 ht
    rcases h with h | h
    · exact h1 h
    · exact h t h2 h3

example : intersection (1 / 10 : ℚ) (0, 0) (4, 4) (0, 4) (4, 0) = some (1 / 2, 1 / 2) := by decide +kernel
example : intersection (1 / 10 : ℚ) (0, 0) (4, 4) (0, 4) (1, 3) = none := by decide +kernel

omit [IsStrictOrderedRing K] in
/-- Segments on the same line are never reported, however much they overlap. -/
theorem overlap_missed (eps : K) (o v : K × K) (x y : K) :
    intersection eps o v (parametric o v x) (parametric o v y) = none :=
  (intersection_none ..).2 (Or.inl (by simp only [Parallel, dir, parametric]; ring))

/-- There are crossings inside both segments that are not reported: those with a parameter within `eps` of an end. -/
theorem crossing_near_end_missed {eps : K} (h0 : 0 < eps) (h1 : eps < 1) :
    ∃ o v a b t : K × K, parametric o v t.1 = parametric a (dir a b) t.2 ∧ (0 < t.1 ∧ t.1 < 1) ∧ (0 < t.2 ∧ t.2 < 1) ∧
      ¬ Parallel v (dir a b) ∧ intersection eps o v a b = none := by
  refine ⟨(0, 0), (1, 0), (eps, -1), (eps, 1), (eps, 1 / 2), ?_, ⟨h0, h1⟩, ⟨by norm_num, by norm_num⟩, ?_, ?_⟩
  · simp only [parametric, dir]; ext <;> ring
  · simp only [Parallel, dir]; norm_num
  · rw [intersection_none]
    refine Or.inr fun t ht hw => ?_
    simp only [parametric, dir, Prod.mk.injEq] at ht
    have : t.1 = eps := by linear_combination ht.1
    exact absurd hw.1.1 (by rw [this]; exact lt_irrefl _)

end
end Verif.Plane
