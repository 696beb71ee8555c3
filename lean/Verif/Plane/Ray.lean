import Verif.Plane.Line

/-! The crossing test `Segment.is_on_x_line` and the parity of crossings around a closed walk. -/

namespace Verif.Plane
open Verif.Decomp (Err isOnXLine)

section
variable {K : Type} [Field K] [LinearOrder K] [IsStrictOrderedRing K]

/-- Positive for points to the left of the line from `a` to `b`, zero on the line. -/
def side (a b p : K × K) : K := (p.2 - a.2) * (b.1 - a.1) - (p.1 - a.1) * (b.2 - a.2)

/-- `p` is a point of the segment from `a` to `b`. -/
def OnSeg (a b p : K × K) : Prop := ∃ t : K, 0 ≤ t ∧ t ≤ 1 ∧ p = parametric a (dir a b) t

theorem side_convex (a b p : K × K) :
    side a b p = (p.2 - a.2) * (b.1 - p.1) + (b.2 - p.2) * (a.1 - p.1) := by
  unfold side; ring

/-- The crossing test without its shortcuts. -/
theorem isOnXLine_iff (a b p : K × K) : isOnXLine a b p = true ↔
    (a.2 ≤ p.2 ∧ p.2 < b.2 ∧ 0 < side a b p) ∨ (b.2 ≤ p.2 ∧ p.2 < a.2 ∧ side a b p ≤ 0) := by
  have hs : (p.2 - a.2) * (b.1 - a.1) > (p.1 - a.1) * (b.2 - a.2) ↔ 0 < side a b p := by
    unfold side; rw [gt_iff_lt, sub_pos]
  unfold isOnXLine
  rcases le_or_gt a.2 b.2 with hab | hab
  · rw [min_eq_left hab, max_eq_right hab]
    by_cases hy : a.2 ≤ p.2 ∧ p.2 < b.2
    · rw [if_pos hy]
      have hno : ¬ (b.2 ≤ p.2 ∧ p.2 < a.2 ∧ side a b p ≤ 0) := fun h => absurd hy.2 (not_lt.2 h.1)
      simp only [hno, or_false, hy, true_and]
      split
      · rename_i h
        have hp := (lt_min_iff.1 h)
        simp only [true_iff]
        rw [side_convex]
        exact add_pos_of_nonneg_of_pos (mul_nonneg (sub_nonneg.2 hy.1) (by linarith [hp.2]))
          (mul_pos (sub_pos.2 hy.2) (by linarith [hp.1]))
      · split
        · rename_i h
          have hp := (max_lt_iff.1 h)
          simp only [Bool.false_eq_true, false_iff, not_lt]
          rw [side_convex]
          exact add_nonpos (mul_nonpos_of_nonneg_of_nonpos (sub_nonneg.2 hy.1) (by linarith [hp.2]))
            (mul_nonpos_of_nonneg_of_nonpos (by linarith [hy.2]) (by linarith [hp.1]))
        · rw [if_neg (not_lt.2 hab), decide_eq_true_iff, hs]
    · rw [if_neg hy]
      simp only [Bool.false_eq_true, false_iff, not_or]
      exact ⟨fun h => hy ⟨h.1, h.2.1⟩, fun h => absurd (lt_of_le_of_lt h.1 h.2.1) (not_lt.2 hab)⟩
  · rw [min_eq_right hab.le, max_eq_left hab.le]
    by_cases hy : b.2 ≤ p.2 ∧ p.2 < a.2
    · rw [if_pos hy]
      have hno : ¬ (a.2 ≤ p.2 ∧ p.2 < b.2 ∧ 0 < side a b p) := fun h => absurd hy.2 (not_lt.2 h.1)
      simp only [hno, false_or, hy, true_and]
      split
      · rename_i h
        have hp := (lt_min_iff.1 h)
        simp only [true_iff]
        rw [side_convex]
        exact add_nonpos (mul_nonpos_of_nonpos_of_nonneg (by linarith [hy.2]) (by linarith [hp.2]))
          (mul_nonpos_of_nonpos_of_nonneg (by linarith [hy.1]) (by linarith [hp.1]))
      · split
        · rename_i h
          have hp := (max_lt_iff.1 h)
          simp only [Bool.false_eq_true, false_iff, not_le]
          rw [side_convex]
          exact add_pos_of_pos_of_nonneg (mul_pos_of_neg_of_neg (by linarith [hy.2]) (by linarith [hp.2]))
            (mul_nonneg_of_nonpos_of_nonpos (by linarith [hy.1]) (by linarith [hp.1]))
        · rw [Bool.not_eq_true', decide_eq_false_iff_not, hs, not_lt]
    · rw [if_neg hy]
      simp only [Bool.false_eq_true, false_iff, not_or]
      exact ⟨fun h => absurd (lt_of_le_of_lt h.1 h.2.1) (not_lt.2 hab.le), fun h => hy ⟨h.1, h.2.1⟩⟩

/-! ### Meaning for one segment -/

omit [IsStrictOrderedRing K] in
theorem side_param (a b : K × K) (t : K) : side a b (parametric a (dir a b) t) = 0 := by
  simp only [side, parametric, dir]; ring

omit [LinearOrder K] [IsStrictOrderedRing K] in
theorem side_swap (a b p : K × K) : side b a p = - side a b p := by unfold side; ring

theorem onSeg_of_side {a b r : K × K} (hab : a.2 < b.2) (h1 : a.2 ≤ r.2) (h2 : r.2 ≤ b.2) (h0 : side a b r = 0) :
    OnSeg a b r := by
  have hd : 0 < b.2 - a.2 := sub_pos.2 hab
  refine ⟨(r.2 - a.2) / (b.2 - a.2), div_nonneg (by linarith) hd.le, (div_le_one hd).2 (by linarith), ?_⟩
  simp only [parametric, dir]
  ext
  · dsimp only
    rw [div_mul_eq_mul_div, ← sub_eq_iff_eq_add', eq_div_iff hd.ne']
    unfold side at h0
    linear_combination -h0
  · dsimp only
    rw [div_mul_cancel₀ _ hd.ne']; ring

theorem OnSeg.swap {a b p : K × K} (h : OnSeg a b p) : OnSeg b a p := by
  obtain ⟨t, h0, h1, rfl⟩ := h
  exact ⟨1 - t, by linarith, by linarith, by simp only [parametric, dir]; ext <;> ring⟩

/-- The horizontal ray from `p` to the right meets the segment, its upper end excluded, at a point other than `p`. -/
def RayHits (a b p : K × K) : Prop := ∃ r, OnSeg a b r ∧ r.2 = p.2 ∧ p.1 < r.1 ∧ r.2 < max a.2 b.2

theorem rayHits_up {a b p : K × K} (hab : a.2 < b.2) :
    RayHits a b p ↔ a.2 ≤ p.2 ∧ p.2 < b.2 ∧ 0 < side a b p := by
  have hd : 0 < b.2 - a.2 := sub_pos.2 hab
  have key : ∀ r : K × K, r.2 = p.2 → side a b r = 0 → (p.1 < r.1 ↔ 0 < side a b p) := by
    intro r h1 h2
    have : side a b p = (r.1 - p.1) * (b.2 - a.2) := by
      unfold side at h2 ⊢; rw [h1] at h2; linear_combination h2
    rw [this, mul_pos_iff_of_pos_right hd, sub_pos]
  constructor
  · rintro ⟨r, ⟨t, h0, h1, rfl⟩, h2, h3, h4⟩
    rw [max_eq_right hab.le] at h4
    rw [← h2]
    refine ⟨?_, h4, (key _ h2 (side_param ..)).1 h3⟩
    simp only [parametric, dir]
    linarith [mul_nonneg h0 hd.le]
  · rintro ⟨h1, h2, h3⟩
    let r : K × K := parametric a (dir a b) ((p.2 - a.2) / (b.2 - a.2))
    have hr2 : r.2 = p.2 := by
      simp only [r, parametric, dir]
      rw [div_mul_cancel₀ _ hd.ne']; ring
    exact ⟨r, ⟨_, div_nonneg (by linarith) hd.le, (div_le_one hd).2 (by linarith), rfl⟩, hr2,
      (key r hr2 (side_param ..)).2 h3, by rw [max_eq_right hab.le, hr2]; exact h2⟩

theorem RayHits.swap {a b p : K × K} (h : RayHits a b p) : RayHits b a p := by
  obtain ⟨r, h1, h2, h3, h4⟩ := h
  exact ⟨r, h1.swap, h2, h3, by rw [max_comm]; exact h4⟩

theorem rayHits_flat {a b p : K × K} (hab : a.2 = b.2) : ¬ RayHits a b p := by
  rintro ⟨r, ⟨t, _, _, rfl⟩, _, _, h4⟩
  simp only [parametric, dir, hab, max_self, sub_self, mul_zero, add_zero, lt_irrefl] at h4

/-- Away from the segment the test says whether the ray to the right meets it. -/
theorem isOnXLine_ray {a b p : K × K} (hp : ¬ OnSeg a b p) : isOnXLine a b p = true ↔ RayHits a b p := by
  rw [isOnXLine_iff]
  rcases lt_trichotomy a.2 b.2 with h | h | h
  · rw [rayHits_up h]
    constructor
    · rintro (h1 | h1)
      · exact h1
      · exact absurd (lt_of_le_of_lt h1.1 h1.2.1) (not_lt.2 h.le)
    · exact Or.inl
  · constructor
    · rintro (h1 | h1)
      · exact absurd (lt_of_le_of_lt h1.1 h1.2.1) (by rw [h]; exact lt_irrefl _)
      · exact absurd (lt_of_le_of_lt h1.1 h1.2.1) (by rw [h]; exact lt_irrefl _)
    · exact fun h1 => absurd h1 (rayHits_flat h)
  · rw [show RayHits a b p ↔ RayHits b a p from ⟨RayHits.swap, RayHits.swap⟩, rayHits_up h, side_swap a b]
    constructor
    · rintro (h1 | h1)
      · exact absurd (lt_of_le_of_lt h1.1 h1.2.1) (not_lt.2 h.le)
      · refine ⟨h1.1, h1.2.1, neg_pos.2 (lt_of_le_of_ne h1.2.2 fun h0 => hp ?_)⟩
        exact (onSeg_of_side h h1.1 h1.2.1.le (by rw [side_swap, h0, neg_zero])).swap
    · rintro ⟨h1, h2, h3⟩
      exact Or.inr ⟨h1, h2, (neg_pos.1 h3).le⟩

example : ¬ OnSeg (0, 0) (2, 4) ((0 : ℚ), 3) := by
  rintro ⟨t, _, _, h⟩
  simp only [parametric, dir, Prod.mk.injEq] at h
  linarith [h.1, h.2]
example : isOnXLine (0, 0) (2, 4) ((0 : ℚ), 3) = true := by decide +kernel

/-- On the segment the answer depends on the direction in which the segment was made: downward segments are met. -/
theorem isOnXLine_on {a b p : K × K} (hp : OnSeg a b p) :
    isOnXLine a b p = true ↔ b.2 < a.2 ∧ p.2 < a.2 := by
  obtain ⟨t, h0, h1, rfl⟩ := hp
  rw [isOnXLine_iff, side_param]
  simp only [lt_irrefl, and_false, false_or, le_refl, and_true, parametric, dir]
  constructor
  · rintro ⟨h2, h3⟩; exact ⟨lt_of_le_of_lt h2 h3, h3⟩
  · rintro ⟨h2, h3⟩
    refine ⟨?_, h3⟩
    have : (1 - t) * (b.2 - a.2) ≤ 0 := mul_nonpos_of_nonneg_of_nonpos (by linarith) (by linarith)
    linarith

example : isOnXLine (0, 0) (2, 4) ((1 : ℚ), 2) = false ∧ isOnXLine (2, 4) (0, 0) ((1 : ℚ), 2) = true := by decide +kernel

/-- When a segment is divided by one of its points, exactly one of the parts is met if the whole is met, and none otherwise. -/
theorem isOnXLine_split {a b m : K × K} (hm : OnSeg a b m) (p : K × K) :
    isOnXLine a b p = (isOnXLine a m p ^^ isOnXLine m b p) ∧ (isOnXLine a m p && isOnXLine m b p) = false := by
  obtain ⟨t, h0, h1, rfl⟩ := hm
  have e1 : side a (parametric a (dir a b) t) p = t * side a b p := by
    simp only [side, parametric, dir]; ring
  have e2 : side (parametric a (dir a b) t) b p = (1 - t) * side a b p := by
    simp only [side, parametric, dir]; ring
  have hm2 : (parametric a (dir a b) t).2 = a.2 + t * (b.2 - a.2) := rfl
  have key : ∀ x y z : Bool, (x = true ↔ (y = true ∧ ¬ z = true) ∨ (z = true ∧ ¬ y = true)) → ¬ (y = true ∧ z = true) →
      x = (y ^^ z) ∧ (y && z) = false := by decide
  have T : 0 ≤ 1 - t := by linarith
  have pt : t ≠ 0 → 0 < t := fun h => lt_of_le_of_ne h0 (Ne.symm h)
  have pT : 1 - t ≠ 0 → 0 < 1 - t := fun h => lt_of_le_of_ne T (Ne.symm h)
  have A : isOnXLine a (parametric a (dir a b) t) p = true ↔
      (a.2 ≤ p.2 ∧ p.2 < a.2 + t * (b.2 - a.2) ∧ 0 < side a b p) ∨
        (a.2 + t * (b.2 - a.2) ≤ p.2 ∧ p.2 < a.2 ∧ side a b p ≤ 0) := by
    rw [isOnXLine_iff, e1, hm2]
    rcases eq_or_ne t 0 with rfl | ht
    · simp only [zero_mul, add_zero, lt_irrefl, and_false, le_refl, and_true, false_or]
      constructor
      · rintro ⟨h2, h3⟩; exact absurd h3 (not_lt.2 h2)
      · rintro (h2 | h2)
        · exact absurd h2.2.1 (not_lt.2 h2.1)
        · exact absurd h2.2.1 (not_lt.2 h2.1)
    · have hle : t * side a b p ≤ 0 ↔ side a b p ≤ 0 := by
        rw [← not_lt, mul_pos_iff_of_pos_left (pt ht), not_lt]
      rw [mul_pos_iff_of_pos_left (pt ht), hle]
  have B : isOnXLine (parametric a (dir a b) t) b p = true ↔
      (a.2 + t * (b.2 - a.2) ≤ p.2 ∧ p.2 < b.2 ∧ 0 < side a b p) ∨
        (b.2 ≤ p.2 ∧ p.2 < a.2 + t * (b.2 - a.2) ∧ side a b p ≤ 0) := by
    rw [isOnXLine_iff, e2, hm2]
    rcases eq_or_ne (1 - t) 0 with ht | ht
    · have : a.2 + t * (b.2 - a.2) = b.2 := by linear_combination (a.2 - b.2) * ht
      rw [this, ht]
      constructor
      · rintro (h2 | h2)
        · exact absurd h2.2.1 (not_lt.2 h2.1)
        · exact absurd h2.2.1 (not_lt.2 h2.1)
      · rintro (h2 | h2)
        · exact absurd h2.2.1 (not_lt.2 h2.1)
        · exact absurd h2.2.1 (not_lt.2 h2.1)
    · have hle : (1 - t) * side a b p ≤ 0 ↔ side a b p ≤ 0 := by
        rw [← not_lt, mul_pos_iff_of_pos_left (pT ht), not_lt]
      rw [mul_pos_iff_of_pos_left (pT ht), hle]
  have W := isOnXLine_iff a b p
  apply key
  · rw [W, A, B]
    rcases le_total a.2 b.2 with h | h
    · have m1 : a.2 ≤ a.2 + t * (b.2 - a.2) := by linarith [mul_nonneg h0 (sub_nonneg.2 h)]
      have m2 : a.2 + t * (b.2 - a.2) ≤ b.2 := by linarith [mul_nonneg T (sub_nonneg.2 h)]
      generalize a.2 + t * (b.2 - a.2) = m at m1 m2
      rcases lt_or_ge p.2 m with hp | hp
      · have := lt_of_lt_of_le hp m2
        simp only [hp, not_le.2 hp, this, not_le.2 this, true_and, false_and, or_false, not_false_eq_true, and_true, false_or]
      · have := le_trans m1 hp
        simp only [hp, not_lt.2 hp, this, not_lt.2 this, true_and, false_and, or_false, and_false, not_false_eq_true, and_true,
          false_or]
    · have m1 : a.2 + t * (b.2 - a.2) ≤ a.2 := by linarith [mul_nonneg h0 (sub_nonneg.2 h)]
      have m2 : b.2 ≤ a.2 + t * (b.2 - a.2) := by linarith [mul_nonneg T (sub_nonneg.2 h)]
      generalize a.2 + t * (b.2 - a.2) = m at m1 m2
      rcases lt_or_ge p.2 m with hp | hp
      · have := lt_of_lt_of_le hp m1
        simp only [hp, not_le.2 hp, this, not_le.2 this, true_and, false_and, or_false, not_false_eq_true, and_true, false_or]
      · have := le_trans m2 hp
        simp only [hp, not_lt.2 hp, this, not_lt.2 this, true_and, false_and, or_false, and_false, not_false_eq_true, and_true,
          false_or]
  · rw [A, B]
    generalize a.2 + t * (b.2 - a.2) = m
    rintro ⟨h2 | h2, h3 | h3⟩
    · exact absurd h2.2.1 (not_lt.2 h3.1)
    · exact absurd h2.2.2 (not_lt.2 h3.2.2)
    · exact absurd h3.2.2 (not_lt.2 h2.2.2)
    · exact absurd h3.2.1 (not_lt.2 h2.1)

/-! ### A segment and a path -/

/-- The segments from `a` to `b` and from `p` to `q` have no common point. -/
def Apart (a b p q : K × K) : Prop := ∀ r, OnSeg a b r → ¬ OnSeg p q r

/-- The segments cross: they are not parallel and have a common point inside both. -/
def Crosses (a b p q : K × K) : Prop :=
  ¬ Parallel (dir a b) (dir p q) ∧ ∃ s t : K, (0 < s ∧ s < 1) ∧ (0 < t ∧ t < 1) ∧
    parametric a (dir a b) s = parametric p (dir p q) t

/-- The leftward ray from `x` meets the path from `p` to `q`, its lower end excluded. -/
def behind (p q x : K × K) : Bool :=
  decide ((p.2 < x.2 ∧ x.2 ≤ q.2 ∧ side p q x < 0) ∨ (q.2 < x.2 ∧ x.2 ≤ p.2 ∧ 0 < side p q x))

theorem OnSeg.left (a b : K × K) : OnSeg a b a := ⟨0, le_refl _, zero_le_one, by simp [parametric]⟩

theorem OnSeg.right (a b : K × K) : OnSeg a b b :=
  ⟨1, zero_le_one, le_refl _, by simp only [parametric, dir]; ext <;> ring⟩

theorem OnSeg.sub {a b u v r : K × K} (hu : OnSeg a b u) (hv : OnSeg a b v) (hr : OnSeg u v r) : OnSeg a b r := by
  obtain ⟨x, x0, x1, rfl⟩ := hu
  obtain ⟨y, y0, y1, rfl⟩ := hv
  obtain ⟨t, t0, t1, rfl⟩ := hr
  refine ⟨(1 - t) * x + t * y, add_nonneg (mul_nonneg (by linarith) x0) (mul_nonneg t0 y0), ?_, ?_⟩
  · have h1 := mul_nonneg (show 0 ≤ 1 - t by linarith) (show 0 ≤ 1 - x by linarith)
    have h2 := mul_nonneg t0 (show 0 ≤ 1 - y by linarith)
    linarith
  · simp only [parametric, dir]; ext <;> ring

theorem Apart.swapL {a b p q : K × K} (h : Apart a b p q) : Apart b a p q := fun r h1 => h r h1.swap
theorem Apart.swapR {a b p q : K × K} (h : Apart a b p q) : Apart a b q p := fun r h1 h2 => h r h1 h2.swap
theorem Apart.symm {a b p q : K × K} (h : Apart a b p q) : Apart p q a b := fun r h1 h2 => h r h2 h1

/-- The ends of a path apart from an upward segment that stays at its heights are on the same side. -/
theorem same_side {a b u v : K × K} (hab : a.2 < b.2) (hu : a.2 ≤ u.2 ∧ u.2 ≤ b.2) (hv : a.2 ≤ v.2 ∧ v.2 ≤ b.2)
    (h : Apart a b u v) (hs : 0 < side a b u) : 0 < side a b v := by
  by_contra hc
  rw [not_lt] at hc
  have hd : 0 < side a b u - side a b v := by linarith
  have t0 : 0 ≤ side a b u / (side a b u - side a b v) := div_nonneg hs.le hd.le
  have t1 : side a b u / (side a b u - side a b v) ≤ 1 := (div_le_one hd).2 (by linarith)
  have e0 : side a b u / (side a b u - side a b v) * (side a b u - side a b v) = side a b u := div_mul_cancel₀ _ hd.ne'
  generalize side a b u / (side a b u - side a b v) = t at t0 t1 e0
  refine h (parametric u (dir u v) t) (onSeg_of_side hab ?_ ?_ ?_) ⟨t, t0, t1, rfl⟩
  · have h1 := mul_nonneg (show 0 ≤ 1 - t by linarith) (sub_nonneg.2 hu.1)
    have h2 := mul_nonneg t0 (sub_nonneg.2 hv.1)
    simp only [parametric, dir]; linarith
  · have h1 := mul_nonneg (show 0 ≤ 1 - t by linarith) (sub_nonneg.2 hu.2)
    have h2 := mul_nonneg t0 (sub_nonneg.2 hv.2)
    simp only [parametric, dir]; linarith
  · have : side a b (parametric u (dir u v) t) = side a b u - t * (side a b u - side a b v) := by
      simp only [side, parametric, dir]; ring
    rw [this, e0, sub_self]

theorem same_side_iff {a b u v : K × K} (hab : a.2 < b.2) (hu : a.2 ≤ u.2 ∧ u.2 ≤ b.2) (hv : a.2 ≤ v.2 ∧ v.2 ≤ b.2)
    (h : Apart a b u v) : 0 < side a b u ↔ 0 < side a b v :=
  ⟨same_side hab hu hv h, same_side hab hv hu h.swapR⟩

theorem Apart.sub {a b p q u v : K × K} (h : Apart a b p q) (hu : OnSeg p q u) (hv : OnSeg p q v) : Apart a b u v :=
  fun r h1 h2 => h r h1 (hu.sub hv h2)

/-- The point of an upward segment at a given height. -/
theorem at_height {p q : K × K} (hpq : p.2 < q.2) {y : K} (h1 : p.2 ≤ y) (h2 : y ≤ q.2) :
    ∃ r, OnSeg p q r ∧ r.2 = y ∧ side p q r = 0 := by
  have hd : 0 < q.2 - p.2 := sub_pos.2 hpq
  refine ⟨_, ⟨(y - p.2) / (q.2 - p.2), div_nonneg (by linarith) hd.le, (div_le_one hd).2 (by linarith), rfl⟩, ?_,
    side_param ..⟩
  simp only [parametric, dir]
  rw [div_mul_cancel₀ _ hd.ne']; ring

theorem top_right {a b p q : K × K} (h : Apart a b p q) (h1 : a.2 ≤ p.2) (h2 : p.2 < b.2) (h3 : b.2 ≤ q.2) :
    0 < side a b p ↔ side p q b < 0 := by
  have hpq := lt_of_lt_of_le h2 h3
  have hab := lt_of_le_of_lt h1 h2
  obtain ⟨r, hr, hy, h0⟩ := at_height hpq h2.le h3
  rw [same_side_iff hab ⟨h1, h2.le⟩ ⟨by rw [hy]; exact hab.le, hy.le⟩ (h.sub (OnSeg.left p q) hr)]
  have e1 : side a b r = (b.2 - a.2) * (b.1 - r.1) := by unfold side; rw [hy]; ring
  have e2 : side p q b = (q.2 - p.2) * (r.1 - b.1) := by
    unfold side at h0 ⊢; rw [hy] at h0; linear_combination h0
  rw [e1, e2, mul_pos_iff_of_pos_left (sub_pos.2 hab), sub_pos, ← neg_pos, ← mul_neg,
    mul_pos_iff_of_pos_left (sub_pos.2 hpq), neg_sub, sub_pos]

theorem bottom_right {a b p q : K × K} (h : Apart a b p q) (h1 : p.2 < a.2) (h2 : a.2 ≤ q.2) (h3 : q.2 < b.2) :
    0 < side a b q ↔ side p q a < 0 := by
  have hpq := lt_of_lt_of_le h1 h2
  have hab := lt_of_le_of_lt h2 h3
  obtain ⟨r, hr, hy, h0⟩ := at_height hpq h1.le h2
  rw [same_side_iff hab ⟨h2, h3.le⟩ ⟨hy.ge, by rw [hy]; exact hab.le⟩ (h.sub (OnSeg.right p q) hr)]
  have e1 : side a b r = (b.2 - a.2) * (a.1 - r.1) := by unfold side; rw [hy]; ring
  have e2 : side p q a = (q.2 - p.2) * (r.1 - a.1) := by
    unfold side at h0 ⊢; rw [hy] at h0; linear_combination h0
  rw [e1, e2, mul_pos_iff_of_pos_left (sub_pos.2 hab), sub_pos, ← neg_pos, ← mul_neg,
    mul_pos_iff_of_pos_left (sub_pos.2 hpq), neg_sub, sub_pos]

theorem side_neg_iff {p q x : K × K} (hpq : p.2 < q.2) (h1 : p.2 ≤ x.2) (h2 : x.2 ≤ q.2) (h : ¬ OnSeg p q x) :
    side p q x < 0 ↔ ¬ 0 < side p q x := by
  rw [not_lt, le_iff_lt_or_eq, or_iff_left]
  exact fun h0 => h (onSeg_of_side hpq h1 h2 h0)

theorem xor_of_iff {P Q R S : Prop} [Decidable P] [Decidable Q] [Decidable R] [Decidable S]
    (h : (P ↔ Q) ↔ (R ↔ S)) : (decide P ^^ decide Q) = (decide R ^^ decide S) := by
  by_cases hP : P <;> by_cases hQ : Q <;> by_cases hR : R <;> by_cases hS : S <;> simp_all

theorem edge_core {a b p q : K × K} (h : Apart a b p q) (hab : a.2 ≤ b.2) (hpq : p.2 ≤ q.2) :
    ((a.2 ≤ p.2 ∧ p.2 < b.2 ∧ 0 < side a b p) ↔ (a.2 ≤ q.2 ∧ q.2 < b.2 ∧ 0 < side a b q)) ↔
      ((p.2 < a.2 ∧ a.2 ≤ q.2 ∧ side p q a < 0) ↔ (p.2 < b.2 ∧ b.2 ≤ q.2 ∧ side p q b < 0)) := by
  rcases lt_or_ge p.2 a.2 with pa | pa
  · have pb := lt_of_lt_of_le pa hab
    rcases lt_or_ge q.2 b.2 with qb | qb
    · rcases lt_or_ge q.2 a.2 with qa | qa
      · simp only [not_le.2 pa, not_le.2 qa, not_le.2 qb, false_and, and_false]
      · have := bottom_right h pa qa qb
        simp only [not_le.2 pa, pa, qa, qb, not_le.2 qb, true_and, false_and, and_false, this]
        tauto
    · have qa := le_trans hab qb
      have hp := lt_of_lt_of_le pa qa
      have na : ¬ OnSeg p q a := h a (OnSeg.left a b)
      have nb : ¬ OnSeg p q b := h b (OnSeg.right a b)
      have := same_side_iff hp ⟨pa.le, qa⟩ ⟨pb.le, qb⟩ h.symm
      rw [side_neg_iff hp pa.le qa na, side_neg_iff hp pb.le qb nb, this]
      simp only [not_le.2 pa, not_lt.2 qb, pa, pb, qa, qb, false_and, and_false]
  · have qa := le_trans pa hpq
    rcases lt_or_ge q.2 b.2 with qb | qb
    · have pb := lt_of_le_of_lt hpq qb
      have := same_side_iff (lt_of_le_of_lt pa pb) ⟨pa, pb.le⟩ ⟨qa, qb.le⟩ h
      simp only [pa, pb, qa, qb, not_lt.2 pa, not_le.2 qb, false_and, and_false, this]
    · rcases lt_or_ge p.2 b.2 with pb | pb
      · have := top_right h pa pb qb
        simp only [pa, pb, qa, qb, not_lt.2 pa, not_lt.2 qb, true_and, false_and, and_false, this]
        tauto
      · simp only [not_lt.2 pb, not_lt.2 qb, not_lt.2 pa, false_and, and_false]

theorem isOnXLine_up {a b : K × K} (hab : a.2 ≤ b.2) (p : K × K) :
    isOnXLine a b p = decide (a.2 ≤ p.2 ∧ p.2 < b.2 ∧ 0 < side a b p) := by
  rw [Bool.eq_iff_iff, isOnXLine_iff, decide_eq_true_iff, or_iff_left]
  exact fun h => absurd (lt_of_le_of_lt h.1 h.2.1) (not_lt.2 hab)

theorem behind_up {p q : K × K} (hpq : p.2 ≤ q.2) (x : K × K) :
    behind p q x = decide (p.2 < x.2 ∧ x.2 ≤ q.2 ∧ side p q x < 0) := by
  rw [Bool.eq_iff_iff, behind, decide_eq_true_iff, decide_eq_true_iff, or_iff_left]
  exact fun h => absurd (lt_of_lt_of_le h.1 h.2.1) (not_lt.2 hpq)

theorem behind_swap (p q x : K × K) : behind p q x = behind q p x := by
  rw [Bool.eq_iff_iff, behind, behind, decide_eq_true_iff, decide_eq_true_iff, side_swap p q x, neg_lt_zero, neg_pos]
  exact or_comm

theorem isOnXLine_swap {a b p : K × K} (h : ¬ OnSeg a b p) : isOnXLine a b p = isOnXLine b a p := by
  rw [Bool.eq_iff_iff, isOnXLine_ray h, isOnXLine_ray (fun h1 => h h1.swap)]
  exact ⟨RayHits.swap, RayHits.swap⟩

/-- For a path apart from a segment, the change of the crossing test along the path is the change of `behind` along the
segment. -/
theorem edge_apart {a b p q : K × K} (h : Apart a b p q) :
    (isOnXLine a b p ^^ isOnXLine a b q) = (behind p q a ^^ behind p q b) := by
  wlog hab : a.2 ≤ b.2 generalizing a b with H
  · have np : ¬ OnSeg a b p := fun h1 => h p h1 (OnSeg.left p q)
    have nq : ¬ OnSeg a b q := fun h1 => h q h1 (OnSeg.right p q)
    rw [isOnXLine_swap np, isOnXLine_swap nq, H h.swapL (not_le.1 hab).le, Bool.xor_comm]
  wlog hpq : p.2 ≤ q.2 generalizing p q with H
  · rw [Bool.xor_comm, H h.swapR (not_le.1 hpq).le, behind_swap p q, behind_swap p q]
  rw [isOnXLine_up hab, isOnXLine_up hab, behind_up hpq, behind_up hpq]
  exact xor_of_iff (edge_core h hab hpq)

/-! ### Crossings -/

theorem cross_signs {a b p q : K × K} (h : Crosses a b p q) :
    (0 < side a b p ∧ side a b q < 0 ∧ side p q a < 0 ∧ 0 < side p q b) ∨
      (side a b p < 0 ∧ 0 < side a b q ∧ 0 < side p q a ∧ side p q b < 0) := by
  obtain ⟨hn, s, t, ⟨s0, s1⟩, ⟨t0, t1⟩, he⟩ := h
  simp only [parametric, dir, Prod.mk.injEq] at he
  have hc : (b.1 - a.1) * (q.2 - p.2) - (b.2 - a.2) * (q.1 - p.1) ≠ 0 := by
    intro h0; exact hn (by simp only [Parallel, dir]; linear_combination h0)
  have e1 : side a b p = -t * ((b.1 - a.1) * (q.2 - p.2) - (b.2 - a.2) * (q.1 - p.1)) := by
    unfold side; linear_combination -(b.1 - a.1) * he.2 + (b.2 - a.2) * he.1
  have e2 : side a b q = (1 - t) * ((b.1 - a.1) * (q.2 - p.2) - (b.2 - a.2) * (q.1 - p.1)) := by
    unfold side; linear_combination -(b.1 - a.1) * he.2 + (b.2 - a.2) * he.1
  have e3 : side p q a = s * ((b.1 - a.1) * (q.2 - p.2) - (b.2 - a.2) * (q.1 - p.1)) := by
    unfold side; linear_combination (q.1 - p.1) * he.2 - (q.2 - p.2) * he.1
  have e4 : side p q b = -(1 - s) * ((b.1 - a.1) * (q.2 - p.2) - (b.2 - a.2) * (q.1 - p.1)) := by
    unfold side; linear_combination (q.1 - p.1) * he.2 - (q.2 - p.2) * he.1
  rw [e1, e2, e3, e4]
  generalize (b.1 - a.1) * (q.2 - p.2) - (b.2 - a.2) * (q.1 - p.1) = c at hc
  rcases lt_or_gt_of_ne hc with hc | hc
  · left
    exact ⟨mul_pos_of_neg_of_neg (by linarith) hc, mul_neg_of_pos_of_neg (by linarith) hc, mul_neg_of_pos_of_neg s0 hc,
      mul_pos_of_neg_of_neg (by linarith) hc⟩
  · right
    exact ⟨mul_neg_of_neg_of_pos (by linarith) hc, mul_pos (by linarith) hc, mul_pos s0 hc,
      mul_neg_of_neg_of_pos (by linarith) hc⟩

theorem cross_heights {a b p q : K × K} (h : Crosses a b p q) (hab : a.2 ≤ b.2) (hpq : p.2 ≤ q.2) :
    p.2 < b.2 ∧ a.2 ≤ q.2 := by
  obtain ⟨hn, s, t, ⟨s0, s1⟩, ⟨t0, t1⟩, he⟩ := h
  simp only [parametric, dir, Prod.mk.injEq] at he
  have h1 := mul_nonneg s0.le (sub_nonneg.2 hab)
  have h2 := mul_nonneg (show 0 ≤ 1 - s by linarith) (sub_nonneg.2 hab)
  have h3 := mul_nonneg t0.le (sub_nonneg.2 hpq)
  have h4 := mul_nonneg (show 0 ≤ 1 - t by linarith) (sub_nonneg.2 hpq)
  refine ⟨?_, by linarith [he.2]⟩
  by_contra hc
  rw [not_lt] at hc
  have e1 : (1 - s) * (b.2 - a.2) = 0 := by linarith [he.2]
  have e2 : t * (q.2 - p.2) = 0 := by linarith [he.2]
  have e3 : b.2 - a.2 = 0 := by
    rcases mul_eq_zero.1 e1 with e | e
    · linarith
    · exact e
  have e4 : q.2 - p.2 = 0 := by
    rcases mul_eq_zero.1 e2 with e | e
    · linarith
    · exact e
  exact hn (by simp only [Parallel, dir]; rw [e3, e4]; ring)

theorem Crosses.swapL {a b p q : K × K} (h : Crosses a b p q) : Crosses b a p q := by
  obtain ⟨hn, s, t, hs, ht, he⟩ := h
  simp only [parametric, dir, Prod.mk.injEq] at he
  refine ⟨fun h0 => hn ?_, 1 - s, t, ⟨by linarith [hs.2], by linarith [hs.1]⟩, ht, ?_⟩
  · simp only [Parallel, dir] at h0 ⊢; linear_combination -h0
  · simp only [parametric, dir]; ext
    · dsimp only; linear_combination he.1
    · dsimp only; linear_combination he.2

theorem Crosses.swapR {a b p q : K × K} (h : Crosses a b p q) : Crosses a b q p := by
  obtain ⟨hn, s, t, hs, ht, he⟩ := h
  simp only [parametric, dir, Prod.mk.injEq] at he
  refine ⟨fun h0 => hn ?_, s, 1 - t, hs, ⟨by linarith [ht.2], by linarith [ht.1]⟩, ?_⟩
  · simp only [Parallel, dir] at h0 ⊢; linear_combination -h0
  · simp only [parametric, dir]; ext
    · dsimp only; linear_combination he.1
    · dsimp only; linear_combination he.2

theorem not_onSeg_of_side {a b p : K × K} (h : side a b p ≠ 0) : ¬ OnSeg a b p := by
  rintro ⟨t, _, _, rfl⟩
  exact h (side_param ..)

/-- For a path across a segment the two changes differ. -/
theorem edge_cross {a b p q : K × K} (h : Crosses a b p q) :
    (isOnXLine a b p ^^ isOnXLine a b q) = !(behind p q a ^^ behind p q b) := by
  wlog hab : a.2 ≤ b.2 generalizing a b with H
  · have hs := cross_signs h
    have np : ¬ OnSeg a b p := not_onSeg_of_side (by rcases hs with hs | hs; exacts [hs.1.ne', hs.1.ne])
    have nq : ¬ OnSeg a b q := not_onSeg_of_side (by rcases hs with hs | hs; exacts [hs.2.1.ne, hs.2.1.ne'])
    rw [isOnXLine_swap np, isOnXLine_swap nq, H h.swapL (not_le.1 hab).le, Bool.xor_comm]
  wlog hpq : p.2 ≤ q.2 generalizing p q with H
  · rw [Bool.xor_comm, H h.swapR (not_le.1 hpq).le, behind_swap p q, behind_swap p q]
  rw [isOnXLine_up hab, isOnXLine_up hab, behind_up hpq, behind_up hpq]
  obtain ⟨pb, aq⟩ := cross_heights h hab hpq
  rcases cross_signs h with ⟨h1, h2, h3, h4⟩ | ⟨h1, h2, h3, h4⟩
  · simp only [h1, h3, not_lt.2 h2.le, not_lt.2 h4.le, pb, aq, and_true, and_false, decide_false, Bool.xor_false]
    rcases lt_or_ge p.2 a.2 with h | h
    · simp [h, not_le.2 h]
    · simp [h, not_lt.2 h]
  · simp only [h2, h4, not_lt.2 h1.le, not_lt.2 h3.le, pb, aq, and_true, true_and, and_false, decide_false, Bool.false_xor]
    rcases lt_or_ge q.2 b.2 with h | h
    · simp [h, not_le.2 h]
    · simp [h, not_lt.2 h]

/-! ### Closed walks -/

/-- The edges follow each other: each starts where the one before ends. -/
def Walk : List ((K × K) × (K × K)) → Prop
  | [] => True
  | [_] => True
  | e :: f :: l => e.2 = f.1 ∧ Walk (f :: l)

/-- A closed walk of edges. -/
def ClosedWalk (l : List ((K × K) × (K × K))) : Prop :=
  Walk l ∧ ∀ e ∈ l.head?, ∀ f ∈ l.getLast?, f.2 = e.1

/-- Number of edges met by the ray to the right of `p` is odd: the loop of `Wire.contains_point`. -/
def odd (l : List ((K × K) × (K × K))) (p : K × K) : Bool :=
  decide ((l.filter fun e => isOnXLine e.1 e.2 p).length % 2 = 1)

omit [IsStrictOrderedRing K] in
theorem odd_cons (e : (K × K) × (K × K)) (l : List ((K × K) × (K × K))) (p : K × K) :
    odd (e :: l) p = (isOnXLine e.1 e.2 p ^^ odd l p) := by
  unfold odd
  rw [List.filter_cons]
  cases h : isOnXLine e.1 e.2 p
  · simp
  · simp only [if_true, List.length_cons]
    rcases Nat.mod_two_eq_zero_or_one (l.filter fun e => isOnXLine e.1 e.2 p).length with h1 | h1
    · simp [h1, Nat.add_mod]
    · simp [h1, Nat.add_mod]

open Classical in
/-- Along a walk: the change of the parity is the number of crossings plus the change of `behind` at the ends. -/
theorem odd_walk {p q : K × K} : ∀ {l : List ((K × K) × (K × K))} (e : (K × K) × (K × K)), Walk (e :: l) →
    (∀ f ∈ e :: l, Apart f.1 f.2 p q ∨ Crosses f.1 f.2 p q) → ∀ z ∈ (e :: l).getLast?,
    (odd (e :: l) p ^^ odd (e :: l) q) =
      ((behind p q e.1 ^^ behind p q z.2) ^^ decide (((e :: l).filter fun f => decide (Crosses f.1 f.2 p q)).length % 2 = 1))
  | l, e, hw, hc, z, hz => by
    have he : (isOnXLine e.1 e.2 p ^^ isOnXLine e.1 e.2 q)
        = ((behind p q e.1 ^^ behind p q e.2) ^^ decide (Crosses e.1 e.2 p q)) := by
      by_cases hx : Crosses e.1 e.2 p q
      · rw [edge_cross hx]; simp [hx]
      · rcases hc e List.mem_cons_self with h | h
        · rw [edge_apart h]; simp [hx]
        · exact absurd h hx
    have hcount : ∀ l' : List ((K × K) × (K × K)),
        decide (((e :: l').filter fun f => decide (Crosses f.1 f.2 p q)).length % 2 = 1)
        = (decide (Crosses e.1 e.2 p q) ^^ decide ((l'.filter fun f => decide (Crosses f.1 f.2 p q)).length % 2 = 1)) := by
      intro l'
      rw [List.filter_cons]
      by_cases hx : Crosses e.1 e.2 p q
      · simp only [hx, decide_true, if_true, List.length_cons]
        rcases Nat.mod_two_eq_zero_or_one (l'.filter fun f => decide (Crosses f.1 f.2 p q)).length with h1 | h1
        · simp [h1, Nat.add_mod]
        · simp [h1, Nat.add_mod]
      · simp [hx]
    rw [odd_cons, odd_cons, hcount]
    have arr : ∀ x y u v : Bool, ((x ^^ u) ^^ (y ^^ v)) = ((x ^^ y) ^^ (u ^^ v)) := by decide
    rw [arr, he]
    cases l with
    | nil =>
      rw [List.getLast?_singleton] at hz
      cases hz
      simp [odd]
    | cons f l =>
      rw [odd_walk f hw.2 (fun g hg => hc g (List.mem_cons_of_mem _ hg)) z (by rw [List.getLast?_cons_cons] at hz; exact hz),
        hw.1]
      generalize behind p q e.1 = x1; generalize behind p q f.1 = x2; generalize behind p q z.2 = x3
      generalize decide (Crosses e.1 f.1 p q) = x4
      generalize decide (((f :: l).filter fun f => decide (Crosses f.1 f.2 p q)).length % 2 = 1) = x5
      revert x1 x2 x3 x4 x5; decide

open Classical in
/-- For a closed walk whose edges are apart from a path or cross it, the parities at the two ends of the path differ exactly
if the number of crossings is odd. -/
theorem odd_closed {l : List ((K × K) × (K × K))} (hl : ClosedWalk l) {p q : K × K}
    (hc : ∀ f ∈ l, Apart f.1 f.2 p q ∨ Crosses f.1 f.2 p q) :
    (odd l p ^^ odd l q) = decide ((l.filter fun f => decide (Crosses f.1 f.2 p q)).length % 2 = 1) := by
  cases l with
  | nil => simp [odd]
  | cons e l =>
    obtain ⟨z, hz⟩ : ∃ z, (e :: l).getLast? = some z := ⟨_, List.getLast?_eq_getLast_of_ne_nil (List.cons_ne_nil _ _)⟩
    rw [odd_walk e hl.1 hc z hz, hl.2 e rfl z hz]
    simp

/-- A point beyond the walk to the right has parity zero. -/
theorem odd_beyond {l : List ((K × K) × (K × K))} {q : K × K} (h : ∀ e ∈ l, e.1.1 < q.1 ∧ e.2.1 < q.1) : odd l q = false := by
  have : (l.filter fun e => isOnXLine e.1 e.2 q) = [] := by
    rw [List.filter_eq_nil_iff]
    intro e he h1
    unfold isOnXLine at h1
    have h2 := max_lt (h e he).1 (h e he).2
    split at h1
    · rw [if_neg (not_lt.2 (le_trans (min_le_max) h2.le))] at h1
      cases h1
    · cases h1
  simp [odd, this]

end
end Verif.Plane
