import Verif.Plane.Ray

/-! Segments that do not meet are separated by a line, so they still do not meet after a small move. -/

namespace Verif.Plane

section
variable {K : Type} [Field K] [LinearOrder K] [IsStrictOrderedRing K]

/-- Scalar product. -/
def dot (n p : K × K) : K := n.1 * p.1 + n.2 * p.2

/-- The line `dot n x = c` is strictly between the segments. -/
def Sep (a b p q : K × K) : Prop := ∃ (n : K × K) (c : K), dot n a < c ∧ dot n b < c ∧ c < dot n p ∧ c < dot n q

theorem sep_apart {a b p q : K × K} (h : Sep a b p q) : Apart a b p q := by
  obtain ⟨n, c, h1, h2, h3, h4⟩ := h
  rintro r ⟨t, t0, t1, rfl⟩ ⟨u, u0, u1, hu⟩
  have e1 : dot n (parametric a (dir a b) t) = (1 - t) * dot n a + t * dot n b := by
    simp only [dot, parametric, dir]; ring
  have e2 : dot n (parametric p (dir p q) u) = (1 - u) * dot n p + u * dot n q := by
    simp only [dot, parametric, dir]; ring
  rw [hu, e2] at e1
  have k1 : (1 - t) * dot n a + t * dot n b < c := by
    rcases t0.lt_or_eq with k | k
    · have := mul_lt_mul_of_pos_left h2 k
      have := mul_le_mul_of_nonneg_left h1.le (sub_nonneg.2 t1)
      linarith
    · rw [← k]; linarith
  have k2 : c < (1 - u) * dot n p + u * dot n q := by
    rcases u0.lt_or_eq with k | k
    · have := mul_lt_mul_of_pos_left h4 k
      have := mul_le_mul_of_nonneg_left h3.le (sub_nonneg.2 u1)
      linarith
    · rw [← k]; linarith
  linarith

theorem Sep.symm {a b p q : K × K} (h : Sep a b p q) : Sep p q a b := by
  obtain ⟨n, c, h1, h2, h3, h4⟩ := h
  refine ⟨(-n.1, -n.2), -c, ?_, ?_, ?_, ?_⟩ <;> simp only [dot] at * <;> linarith

/-- Both ends are on the same side of the line of the other segment. -/
theorem sep_of_sides {a b p q : K × K} (h : 0 < side a b p ∧ 0 < side a b q ∨ side a b p < 0 ∧ side a b q < 0) : Sep a b p q := by
  have e : ∀ x, side a b x = dot (-(b.2 - a.2), b.1 - a.1) x - dot (-(b.2 - a.2), b.1 - a.1) a := by
    intro x; simp only [side, dot]; ring
  have eb : dot (-(b.2 - a.2), b.1 - a.1) b = dot (-(b.2 - a.2), b.1 - a.1) a := by simp only [dot]; ring
  rcases h with ⟨h1, h2⟩ | ⟨h1, h2⟩
  · refine ⟨(-(b.2 - a.2), b.1 - a.1), dot (-(b.2 - a.2), b.1 - a.1) a + min (side a b p) (side a b q) / 2, ?_, ?_, ?_, ?_⟩
    · have := lt_min h1 h2; linarith
    · have := lt_min h1 h2; rw [eb]; linarith
    · have := min_le_left (side a b p) (side a b q); have := e p; linarith [lt_min h1 h2]
    · have := min_le_right (side a b p) (side a b q); have := e q; linarith [lt_min h1 h2]
  · refine Sep.symm ⟨(-(b.2 - a.2), b.1 - a.1), dot (-(b.2 - a.2), b.1 - a.1) a + max (side a b p) (side a b q) / 2, ?_, ?_, ?_, ?_⟩
    · have := le_max_left (side a b p) (side a b q); have := e p; linarith [max_lt h1 h2]
    · have := le_max_right (side a b p) (side a b q); have := e q; linarith [max_lt h1 h2]
    · have := max_lt h1 h2; linarith
    · have := max_lt h1 h2; rw [eb]; linarith

theorem dot_self_pos {v : K × K} (h : v ≠ (0, 0)) : 0 < dot v v := by
  unfold dot
  rcases eq_or_ne v.1 0 with h1 | h1
  · have h2 : v.2 ≠ 0 := fun h2 => h (Prod.ext h1 h2)
    have := mul_self_pos.2 h2
    rw [h1]; linarith
  · have := mul_self_pos.2 h1
    have := mul_self_nonneg v.2
    linarith

theorem dir_ne {a b : K × K} (h : a ≠ b) : dir a b ≠ (0, 0) := by
  intro hh
  simp only [dir, Prod.mk.injEq] at hh
  exact h (Prod.ext (by linarith [hh.1]) (by linarith [hh.2]))

/-- A point of the line of a segment. -/
theorem on_line {a b p : K × K} (h : a ≠ b) (h0 : side a b p = 0) : ∃ t, p = parametric a (dir a b) t := by
  have hd := dot_self_pos (dir_ne h)
  refine ⟨dot (dir a b) (dir a p) / dot (dir a b) (dir a b), ?_⟩
  simp only [dot, dir, side, parametric] at *
  refine Prod.ext ?_ ?_
  · dsimp only
    rw [div_mul_eq_mul_div, ← sub_eq_iff_eq_add', eq_div_iff hd.ne']
    linear_combination (-(b.2 - a.2)) * h0
  · dsimp only
    rw [div_mul_eq_mul_div, ← sub_eq_iff_eq_add', eq_div_iff hd.ne']
    linear_combination (b.1 - a.1) * h0

/-- Points of one line, both before or both after the segment. -/
theorem sep_line {a b p q : K × K} (h : a ≠ b) {t u : K} (hp : p = parametric a (dir a b) t) (hq : q = parametric a (dir a b) u)
    (htu : 1 < t ∧ 1 < u ∨ t < 0 ∧ u < 0) : Sep a b p q := by
  have hd := dot_self_pos (dir_ne h)
  have e : ∀ t, dot (dir a b) (parametric a (dir a b) t) = dot (dir a b) a + t * dot (dir a b) (dir a b) := by
    intro t; simp only [dot, parametric, dir]; ring
  have ea := e 0
  have eb := e 1
  rw [show parametric a (dir a b) 0 = a by simp [parametric]] at ea
  rw [show parametric a (dir a b) 1 = b by simp [parametric, dir]] at eb
  have key : ∀ x y : K, x < y → x * dot (dir a b) (dir a b) < y * dot (dir a b) (dir a b) := fun x y hxy =>
    mul_lt_mul_of_pos_right hxy hd
  rcases htu with ⟨h1, h2⟩ | ⟨h1, h2⟩
  · have hm : 1 < min t u := lt_min h1 h2
    have hm' : (1 + min t u) / 2 < min t u := by linarith
    have hm1 : 1 < (1 + min t u) / 2 := by linarith
    refine ⟨dir a b, dot (dir a b) a + (1 + min t u) / 2 * dot (dir a b) (dir a b), ?_, ?_, ?_, ?_⟩
    · have := key 0 ((1 + min t u) / 2) (by linarith); linarith
    · rw [eb]; have := key 1 ((1 + min t u) / 2) hm1; linarith
    · rw [hp, e]; have := key _ t (hm'.trans_le (min_le_left _ _)); linarith
    · rw [hq, e]; have := key _ u (hm'.trans_le (min_le_right _ _)); linarith
  · have hm : max t u < 0 := max_lt h1 h2
    have hm' : max t u < max t u / 2 := by linarith
    refine Sep.symm ⟨dir a b, dot (dir a b) a + max t u / 2 * dot (dir a b) (dir a b), ?_, ?_, ?_, ?_⟩
    · rw [hp, e]; have := key t _ ((le_max_left t u).trans_lt hm'); linarith
    · rw [hq, e]; have := key u _ ((le_max_right t u).trans_lt hm'); linarith
    · have := key (max t u / 2) 0 (by linarith); linarith
    · rw [eb]; have := key (max t u / 2) 1 (by linarith); linarith

theorem apart_sep_line {a b p q : K × K} (h : Apart a b p q) (hab : a ≠ b) (h1 : side a b p = 0) (h2 : side a b q = 0) :
    Sep a b p q := by
  obtain ⟨t, ht⟩ := on_line hab h1
  obtain ⟨u, hu⟩ := on_line hab h2
  have key : ∀ t u, p = parametric a (dir a b) t → q = parametric a (dir a b) u → ¬ (t < 0 ∧ 1 < u) ∧ ¬ (1 < t ∧ u < 0) := by
    intro t u ht hu
    constructor
    · rintro ⟨h1, h2⟩
      refine h a (OnSeg.left _ _) ⟨-t / (u - t), div_nonneg (by linarith) (by linarith), (div_le_one (by linarith)).2 (by linarith), ?_⟩
      have hne : u - t ≠ 0 := by linarith
      rw [ht, hu]
      simp only [parametric, dir]
      refine Prod.ext ?_ ?_ <;> dsimp only <;> field_simp <;> ring
    · rintro ⟨h1, h2⟩
      refine h a (OnSeg.left _ _) ⟨t / (t - u), div_nonneg (by linarith) (by linarith), (div_le_one (by linarith)).2 (by linarith), ?_⟩
      have hne : t - u ≠ 0 := by linarith
      rw [ht, hu]
      simp only [parametric, dir]
      refine Prod.ext ?_ ?_ <;> dsimp only <;> field_simp <;> ring
  have hp : ¬ (0 ≤ t ∧ t ≤ 1) := fun hh => h p ⟨t, hh.1, hh.2, ht⟩ (OnSeg.left _ _)
  have hq : ¬ (0 ≤ u ∧ u ≤ 1) := fun hh => h q ⟨u, hh.1, hh.2, hu⟩ (OnSeg.right _ _)
  obtain ⟨k1, k2⟩ := key t u ht hu
  refine sep_line hab ht hu ?_
  rw [not_and_or, not_le, not_le] at hp hq
  rcases hp with hp | hp <;> rcases hq with hq | hq
  · exact Or.inr ⟨hp, hq⟩
  · exact absurd ⟨hp, hq⟩ k1
  · exact absurd ⟨hp, hq⟩ k2
  · exact Or.inl ⟨hp, hq⟩

/-- Segments that do not meet are separated by a line. -/
theorem apart_sep {a b p q : K × K} (h : Apart a b p q) : Sep a b p q := by
  by_cases hs : 0 < side a b p ∧ 0 < side a b q ∨ side a b p < 0 ∧ side a b q < 0
  · exact sep_of_sides hs
  by_cases ht : 0 < side p q a ∧ 0 < side p q b ∨ side p q a < 0 ∧ side p q b < 0
  · exact (sep_of_sides ht).symm
  have d1 : side a b q - side a b p = -(side p q b - side p q a) := by simp only [side]; ring
  by_cases hD : side a b q - side a b p = 0
  · have e1 : side a b p = 0 := by
      rcases lt_trichotomy (side a b p) 0 with k | k | k
      · exact absurd (Or.inr ⟨k, by linarith⟩) hs
      · exact k
      · exact absurd (Or.inl ⟨k, by linarith⟩) hs
    have e2 : side p q a = 0 := by
      rcases lt_trichotomy (side p q a) 0 with k | k | k
      · exact absurd (Or.inr ⟨k, by linarith⟩) ht
      · exact k
      · exact absurd (Or.inl ⟨k, by linarith⟩) ht
    by_cases hab : a = b
    · by_cases hpq : p = q
      · subst hab hpq
        have hne : a ≠ p := fun hh => h a (OnSeg.left _ _) (hh ▸ OnSeg.left _ _)
        have hd := dot_self_pos (dir_ne hne)
        have e : dot (dir a p) p = dot (dir a p) a + dot (dir a p) (dir a p) := by simp only [dot, dir]; ring
        exact ⟨dir a p, dot (dir a p) a + dot (dir a p) (dir a p) / 2, by linarith, by linarith, by linarith, by linarith⟩
      · exact (apart_sep_line h.symm hpq e2 (by linarith)).symm
    · exact apart_sep_line h hab e1 (by linarith)
  · exfalso
    obtain ⟨D, hDd⟩ : ∃ D, D = side a b q - side a b p := ⟨_, rfl⟩
    rw [← hDd] at hD
    have hu : 0 ≤ -side a b p / D ∧ -side a b p / D ≤ 1 := by
      rcases lt_or_gt_of_ne hD with k | k
      · have h1 : ¬ side a b p < 0 := fun hh => hs (Or.inr ⟨hh, by linarith⟩)
        have h2 : ¬ 0 < side a b q := fun hh => hs (Or.inl ⟨by linarith, hh⟩)
        exact ⟨div_nonneg_of_nonpos (by linarith) k.le, (div_le_one_of_neg k).2 (by linarith)⟩
      · have h1 : ¬ 0 < side a b p := fun hh => hs (Or.inl ⟨hh, by linarith⟩)
        have h2 : ¬ side a b q < 0 := fun hh => hs (Or.inr ⟨by linarith, hh⟩)
        exact ⟨div_nonneg (by linarith) k.le, (div_le_one k).2 (by linarith)⟩
    have htt : 0 ≤ side p q a / D ∧ side p q a / D ≤ 1 := by
      rcases lt_or_gt_of_ne hD with k | k
      · have h1 : ¬ 0 < side p q a := fun hh => ht (Or.inl ⟨hh, by linarith⟩)
        have h2 : ¬ side p q b < 0 := fun hh => ht (Or.inr ⟨by linarith, hh⟩)
        exact ⟨div_nonneg_of_nonpos (by linarith) k.le, (div_le_one_of_neg k).2 (by linarith)⟩
      · have h1 : ¬ side p q a < 0 := fun hh => ht (Or.inr ⟨hh, by linarith⟩)
        have h2 : ¬ 0 < side p q b := fun hh => ht (Or.inl ⟨by linarith, hh⟩)
        exact ⟨div_nonneg (by linarith) k.le, (div_le_one k).2 (by linarith)⟩
    refine h _ ⟨_, htt.1, htt.2, rfl⟩ ⟨_, hu.1, hu.2, ?_⟩
    have hD2 : D = (b.1 - a.1) * (q.2 - p.2) - (b.2 - a.2) * (q.1 - p.1) := by rw [hDd]; simp only [side]; ring
    simp only [parametric, dir]
    refine Prod.ext ?_ ?_
    · dsimp only
      rw [div_mul_eq_mul_div, div_mul_eq_mul_div, ← sub_eq_zero]
      have : (a.1 - p.1) * D + side p q a * (b.1 - a.1) + side a b p * (q.1 - p.1) = 0 := by rw [hD2]; simp only [side]; ring
      field_simp
      linear_combination this
    · dsimp only
      rw [div_mul_eq_mul_div, div_mul_eq_mul_div, ← sub_eq_zero]
      have : (a.2 - p.2) * D + side p q a * (b.2 - a.2) + side a b p * (q.2 - p.2) = 0 := by rw [hD2]; simp only [side]; ring
      field_simp
      linear_combination this

/-- Small moves along two vectors. -/
theorem sep_push {a b p q : K × K} (h : Sep a b p q) (du dv : K × K) :
    ∃ τ, 0 < τ ∧ ∀ t, 0 ≤ t → t ≤ τ → ∀ u, 0 ≤ u → u ≤ τ → Sep a b (parametric p du t) (parametric q dv u) := by
  obtain ⟨n, c, h1, h2, h3, h4⟩ := h
  have key : ∀ (p du : K × K), c < dot n p → ∃ τ, 0 < τ ∧ ∀ t, 0 ≤ t → t ≤ τ → c < dot n (parametric p du t) := by
    intro p du hp
    have hpos : 0 < |dot n du| + 1 := by have := abs_nonneg (dot n du); linarith
    refine ⟨(dot n p - c) / 2 / (|dot n du| + 1), div_pos (by linarith) hpos, fun t t0 t1 => ?_⟩
    have e : dot n (parametric p du t) = dot n p + t * dot n du := by simp only [dot, parametric]; ring
    rw [le_div_iff₀ hpos] at t1
    have h5 : -(t * |dot n du|) ≤ t * dot n du := by
      have := mul_le_mul_of_nonneg_left (neg_abs_le (dot n du)) t0
      linarith
    rw [e]
    linarith
  obtain ⟨τ, h5, h6⟩ := key p du h3
  obtain ⟨τ', h7, h8⟩ := key q dv h4
  exact ⟨min τ τ', lt_min h5 h7, fun t t0 t1 u u0 u1 => ⟨n, c, h1, h2, h6 t t0 (t1.trans (min_le_left _ _)),
    h8 u u0 (u1.trans (min_le_right _ _))⟩⟩

/-- Small moves keep the ends of a path away from finitely many segments. -/
theorem apart_push {ι : Type} (A B : ι → K × K) {p q : K × K} (du dv : K × K) : ∀ l : List ι, (∀ i ∈ l, Apart (A i) (B i) p q) →
    ∃ τ, 0 < τ ∧ ∀ t, 0 ≤ t → t ≤ τ → ∀ u, 0 ≤ u → u ≤ τ → ∀ i ∈ l, Apart (A i) (B i) (parametric p du t) (parametric q dv u)
  | [], _ => ⟨1, one_pos, fun _ _ _ _ _ _ i hi => by simp at hi⟩
  | i :: l, h => by
    obtain ⟨τ, h1, h2⟩ := apart_push A B du dv l fun j hj => h j (List.mem_cons_of_mem _ hj)
    obtain ⟨τ', h3, h4⟩ := sep_push (apart_sep (h i List.mem_cons_self)) du dv
    refine ⟨min τ τ', lt_min h1 h3, fun t t0 t1 u u0 u1 j hj => ?_⟩
    rcases List.mem_cons.1 hj with rfl | hj
    · exact sep_apart (h4 t t0 (t1.trans (min_le_right _ _)) u u0 (u1.trans (min_le_right _ _)))
    · exact h2 t t0 (t1.trans (min_le_left _ _)) u u0 (u1.trans (min_le_left _ _)) j hj

end
end Verif.Plane
