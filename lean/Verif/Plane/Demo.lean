import Verif.Plane.Wire
import Verif.Decomp.Demo

/-! Concrete cases for the theorems on `contains_point`. -/

namespace Verif.Plane
open Verif.Decomp

section
variable {K : Type} [Field K] [LinearOrder K] [IsStrictOrderedRing K]

/-- Segments are apart if the ends of one are strictly on one side of the other. -/
theorem apart_of_side {a b p q : K × K}
    (h : (0 < side a b p ∧ 0 < side a b q) ∨ (side a b p < 0 ∧ side a b q < 0) ∨
      (0 < side p q a ∧ 0 < side p q b) ∨ (side p q a < 0 ∧ side p q b < 0)) : Apart a b p q := by
  have mix : ∀ (a b p q : K × K) (t : K), side a b (parametric p (dir p q) t) = (1 - t) * side a b p + t * side a b q := by
    intro a b p q t; simp only [side, parametric, dir]; ring
  have pos : ∀ t x y : K, 0 ≤ t → t ≤ 1 → 0 < x → 0 < y → (1 - t) * x + t * y ≠ 0 := by
    intro t x y t0 t1 hx hy h0
    have h1 := mul_nonneg (show 0 ≤ 1 - t by linarith) hx.le
    have h2 := mul_nonneg t0 hy.le
    have h3 : t = 0 := (mul_eq_zero.1 (show t * y = 0 by linarith)).resolve_right hy.ne'
    rw [h3] at h0; linarith
  have key : ∀ (a b p q r : K × K), ((0 < side a b p ∧ 0 < side a b q) ∨ (side a b p < 0 ∧ side a b q < 0)) →
      OnSeg p q r → ¬ OnSeg a b r := by
    rintro a b p q r h ⟨t, t0, t1, rfl⟩ ⟨x, _, _, hx⟩
    have h0 : side a b (parametric p (dir p q) t) = 0 := by rw [hx, side_param]
    rw [mix] at h0
    rcases h with h | h
    · exact pos t _ _ t0 t1 h.1 h.2 h0
    · exact pos t (-side a b p) (-side a b q) t0 t1 (neg_pos.2 h.1) (neg_pos.2 h.2) (by linear_combination -h0)
  intro r h1 h2
  rcases h with h | h | h | h
  · exact key a b p q r (Or.inl h) h2 h1
  · exact key a b p q r (Or.inr h) h2 h1
  · exact key p q a b r (Or.inl h) h1 h2
  · exact key p q a b r (Or.inr h) h1 h2

/-- Segments cross if the ends of each are strictly on different sides of the other. -/
theorem crosses_of_side {a b p q : K × K} (h1 : side a b p * side a b q < 0) (h2 : side p q a * side p q b < 0) :
    Crosses a b p q := by
  have e : side a b p - side a b q = side p q b - side p q a := by unfold side; ring
  have hc : (b.1 - a.1) * (q.2 - p.2) - (b.2 - a.2) * (q.1 - p.1) = side a b q - side a b p := by unfold side; ring
  have n1 : side a b p - side a b q ≠ 0 := fun h => by
    rw [sub_eq_zero.1 h] at h1; exact absurd (mul_self_nonneg (side a b q)) (not_le.2 h1)
  have n2 : side p q a - side p q b ≠ 0 := fun h => by
    rw [sub_eq_zero.1 h] at h2; exact absurd (mul_self_nonneg (side p q b)) (not_le.2 h2)
  have fr : ∀ x y : K, x * y < 0 → 0 < x / (x - y) ∧ x / (x - y) < 1 := by
    intro x y h
    rcases mul_neg_iff.1 h with ⟨hx, hy⟩ | ⟨hx, hy⟩
    · have : 0 < x - y := by linarith
      exact ⟨div_pos hx this, (div_lt_one this).2 (by linarith)⟩
    · have : x - y < 0 := by linarith
      exact ⟨div_pos_of_neg_of_neg hx this, (div_lt_one_of_neg this).2 (by linarith)⟩
  refine ⟨fun h => n1 ?_, _, _, fr _ _ h2, fr _ _ h1, ?_⟩
  · simp only [Parallel, dir] at h; linear_combination hc - h
  · have n2' : side p q a - side p q b = -(side a b p - side a b q) := by linear_combination e
    rw [n2', div_neg]
    simp only [parametric, dir]
    ext <;> dsimp only <;> rw [div_mul_eq_mul_div, neg_mul, div_mul_eq_mul_div] <;> field_simp <;> unfold side <;> ring

end

/-- A triangle. -/
def triangle : List (Op ℚ) :=
  [.addPoint (0, 0) 0, .addPoint (4, 0) 0, .addPoint (0, 4) 0, .newSegment 0 1, .newSegment 1 2, .newSegment 2 0]

theorem triangle_good : SoundReach demo (after triangle) := (after_good (by decide +kernel)).1

/-- The hypotheses of `contains_point_parity` hold for the inner wire of the triangle and a path that crosses one side, and
the point is inside. -/
theorem triangle_contains :
    (∀ d : HE, d.1 ∈ (after triangle).sid.live → (after triangle).wire d = some 2 →
      SideApart (after triangle) (1, 1) (9, 2) d ∨ SideCrosses (after triangle) (1, 1) (9, 2) d) ∧
    (∀ d : HE, d.1 ∈ (after triangle).sid.live → (after triangle).wire d = some 2 →
      ((after triangle).xy ((after triangle).vtx (d.1, false))).1 < 9 ∧
        ((after triangle).xy ((after triangle).vtx (d.1, true))).1 < 9) ∧
    (containsPoint (after triangle) 2 (1, 1)).toOption = some true ∧
    (containsPoint (after triangle) 2 (3, 3)).toOption = some false := by
  have hl : (after triangle).sid.live = [0, 1, 2] := by decide +kernel
  have x0 : (after triangle).xy 0 = (0, 0) := by decide +kernel
  have x1 : (after triangle).xy 1 = (4, 0) := by decide +kernel
  have x2 : (after triangle).xy 2 = (0, 4) := by decide +kernel
  have v : (after triangle).vtx (0, false) = 0 ∧ (after triangle).vtx (0, true) = 1 ∧ (after triangle).vtx (1, false) = 1 ∧
      (after triangle).vtx (1, true) = 2 ∧ (after triangle).vtx (2, false) = 2 ∧ (after triangle).vtx (2, true) = 0 := by
    decide +kernel
  refine ⟨fun d hd _ => ?_, fun d hd _ => ?_, by decide +kernel, by decide +kernel⟩
  · rw [hl] at hd
    unfold SideApart SideCrosses
    have h3 : d.1 = 0 ∨ d.1 = 1 ∨ d.1 = 2 := by simpa using hd
    rcases h3 with h | h | h <;> rw [h]
    · rw [v.1, v.2.1, x0, x1]
      exact Or.inl (apart_of_side (by decide +kernel))
    · rw [v.2.2.1, v.2.2.2.1, x1, x2]
      exact Or.inr (crosses_of_side (by decide +kernel) (by decide +kernel))
    · rw [v.2.2.2.2.1, v.2.2.2.2.2, x2, x0]
      exact Or.inl (apart_of_side (by decide +kernel))
  · rw [hl] at hd
    have h3 : d.1 = 0 ∨ d.1 = 1 ∨ d.1 = 2 := by simpa using hd
    rcases h3 with h | h | h <;> rw [h]
    · rw [v.1, v.2.1, x0, x1]; decide +kernel
    · rw [v.2.2.1, v.2.2.2.1, x1, x2]; decide +kernel
    · rw [v.2.2.2.2.1, v.2.2.2.2.2, x2, x0]; decide +kernel

/-- The hypotheses of `contains_point_split`: the lower side of the triangle is divided in its middle. -/
theorem triangle_split :
    SoundReach demo (after (triangle ++ [.addPoint (2, 0) 0])) ∧
    (0 : Id) ∈ (after (triangle ++ [.addPoint (2, 0) 0])).sid.live ∧
    (after (triangle ++ [.addPoint (2, 0) 0])).pseg 3 = none ∧
    ((splitSegment 0 3 (after (triangle ++ [.addPoint (2, 0) 0]))).toOption.map fun r =>
      (r.1, (containsPoint r.2 2 (1, 1)).toOption, (containsPoint r.2 2 (3, -1)).toOption)) = some (3, some true, some false) ∧
    OnSeg ((0, 0) : ℚ × ℚ) (4, 0) (2, 0) :=
  ⟨(after_good (by decide +kernel)).1, by decide +kernel, by decide +kernel, by decide +kernel, 1 / 2, by norm_num, by norm_num,
    by simp only [parametric, dir]; norm_num⟩

end Verif.Plane
