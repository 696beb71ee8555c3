import Verif.Approx.Rect

/-!
The rectangle of `min_bounding_rect` (src/bgem/bspline/bspline_approx.py:172-238) is the smallest over all directions. The
proof turns a rectangle with four single touching points in the sense in which its area does not grow, up to the first
direction in which two points are on one side.
-/
namespace Verif.Approx

/-- Of finitely many decreasing lengths the first that gets zero. -/
theorem first_zero {ι : Type*} (l : List ι) (A B : ι → ℝ) (hA : ∀ i ∈ l, 0 < A i) (hB : ∃ i ∈ l, 0 < B i) :
    ∃ t : ℝ, 0 < t ∧ (∀ i ∈ l, 0 ≤ A i - t * B i) ∧ ∃ i ∈ l, A i - t * B i = 0 := by
  induction l with
  | nil => simp at hB
  | cons j l ih =>
    by_cases h : ∃ i ∈ l, 0 < B i
    · obtain ⟨t, ht, h1, i, hi, h2⟩ := ih (fun i hi => hA i (List.mem_cons_of_mem _ hi)) h
      by_cases hj : 0 ≤ A j - t * B j
      · refine ⟨t, ht, fun k hk => ?_, i, List.mem_cons_of_mem _ hi, h2⟩
        rcases List.mem_cons.1 hk with rfl | hk
        · exact hj
        · exact h1 k hk
      · have hAj := hA j List.mem_cons_self
        have hBj : 0 < B j := by
          by_contra hn
          have := mul_nonneg ht.le (by linarith : 0 ≤ -B j)
          apply hj; linarith
        refine ⟨A j / B j, div_pos hAj hBj, fun k hk => ?_, j, List.mem_cons_self, by field_simp; ring⟩
        rcases List.mem_cons.1 hk with rfl | hk
        · rw [div_mul_cancel₀ _ hBj.ne']; linarith
        · have hle : A j / B j ≤ t := by
            rw [div_le_iff₀ hBj]; linarith
          rcases le_or_gt (B k) 0 with hk0 | hk0
          · have := hA k (List.mem_cons_of_mem _ hk)
            have := mul_nonneg (div_pos hAj hBj).le (by linarith : 0 ≤ -B k)
            linarith
          · have := mul_le_mul_of_nonneg_right hle hk0.le
            have := h1 k hk
            linarith
    · have hj : 0 < B j := by
        obtain ⟨i, hi, hb⟩ := hB
        rcases List.mem_cons.1 hi with rfl | hi
        · exact hb
        · exact absurd ⟨i, hi, hb⟩ h
      have hAj := hA j List.mem_cons_self
      refine ⟨A j / B j, div_pos hAj hj, fun k hk => ?_, j, List.mem_cons_self, by field_simp; ring⟩
      rcases List.mem_cons.1 hk with rfl | hk
      · rw [div_mul_cancel₀ _ hj.ne']; linarith
      · have hk0 : B k ≤ 0 := not_lt.1 fun hb => h ⟨k, hk, hb⟩
        have := hA k (List.mem_cons_of_mem _ hk)
        have := mul_nonneg (div_pos hAj hj).le (by linarith : 0 ≤ -B k)
        linarith

/-- The points `x0 x1 y0 y1` bound the points `S` in the directions `(1, τ)` and `(-τ, 1)`. -/
structure Bounds (S : List (ℝ × ℝ)) (τ : ℝ) (x0 x1 y0 y1 : ℝ × ℝ) : Prop where
  bx0 : ∀ q ∈ S, 0 ≤ (q.1 - x0.1) + τ * (q.2 - x0.2)
  bx1 : ∀ q ∈ S, 0 ≤ (x1.1 - q.1) + τ * (x1.2 - q.2)
  by0 : ∀ q ∈ S, 0 ≤ (q.2 - y0.2) - τ * (q.1 - y0.1)
  by1 : ∀ q ∈ S, 0 ≤ (y1.2 - q.2) - τ * (y1.1 - q.1)

/-- Two points on one side. -/
def Tie (S : List (ℝ × ℝ)) (τ : ℝ) (x0 x1 y0 y1 : ℝ × ℝ) : Prop :=
  ∃ q ∈ S, (q ≠ x0 ∧ (q.1 - x0.1) + τ * (q.2 - x0.2) = 0) ∨ (q ≠ x1 ∧ (x1.1 - q.1) + τ * (x1.2 - q.2) = 0) ∨
    (q ≠ y0 ∧ (q.2 - y0.2) - τ * (q.1 - y0.1) = 0) ∨ (q ≠ y1 ∧ (y1.2 - q.2) - τ * (y1.1 - q.1) = 0)

/-- Turn in a given sense up to the first tie. -/
theorem turn {S : List (ℝ × ℝ)} {x0 x1 y0 y1 : ℝ × ℝ} (m0 : x0 ∈ S) (m1 : x1 ∈ S) (n0 : y0 ∈ S) (n1 : y1 ∈ S)
    (hne : x0 ≠ x1) (hb : Bounds S 0 x0 x1 y0 y1) (ht : ¬ Tie S 0 x0 x1 y0 y1) {σ : ℝ} (hσ : σ = 1 ∨ σ = -1) :
    ∃ t : ℝ, 0 < t ∧ Bounds S (σ * t) x0 x1 y0 y1 ∧ Tie S (σ * t) x0 x1 y0 y1 := by
  classical
  have px0 : ∀ q ∈ S, q ≠ x0 → 0 < q.1 - x0.1 := fun q hq hn =>
    lt_of_le_of_ne (by have := hb.bx0 q hq; linarith) (fun h => ht ⟨q, hq, Or.inl ⟨hn, by rw [← h]; ring⟩⟩)
  have px1 : ∀ q ∈ S, q ≠ x1 → 0 < x1.1 - q.1 := fun q hq hn =>
    lt_of_le_of_ne (by have := hb.bx1 q hq; linarith) (fun h => ht ⟨q, hq, Or.inr (Or.inl ⟨hn, by rw [← h]; ring⟩)⟩)
  have py0 : ∀ q ∈ S, q ≠ y0 → 0 < q.2 - y0.2 := fun q hq hn =>
    lt_of_le_of_ne (by have := hb.by0 q hq; linarith)
      (fun h => ht ⟨q, hq, Or.inr (Or.inr (Or.inl ⟨hn, by rw [← h]; ring⟩))⟩)
  have py1 : ∀ q ∈ S, q ≠ y1 → 0 < y1.2 - q.2 := fun q hq hn =>
    lt_of_le_of_ne (by have := hb.by1 q hq; linarith)
      (fun h => ht ⟨q, hq, Or.inr (Or.inr (Or.inr ⟨hn, by rw [← h]; ring⟩))⟩)
  -- the four families
  let L : List (Fin 4 × (ℝ × ℝ)) :=
    ((S.filter (· ≠ x0)).map fun q => (0, q)) ++ ((S.filter (· ≠ x1)).map fun q => (1, q)) ++
    ((S.filter (· ≠ y0)).map fun q => (2, q)) ++ ((S.filter (· ≠ y1)).map fun q => (3, q))
  let A : Fin 4 × (ℝ × ℝ) → ℝ := fun z =>
    if z.1 = 0 then z.2.1 - x0.1 else if z.1 = 1 then x1.1 - z.2.1 else if z.1 = 2 then z.2.2 - y0.2 else y1.2 - z.2.2
  let B : Fin 4 × (ℝ × ℝ) → ℝ := fun z =>
    if z.1 = 0 then -σ * (z.2.2 - x0.2) else if z.1 = 1 then -σ * (x1.2 - z.2.2) else
      if z.1 = 2 then σ * (z.2.1 - y0.1) else σ * (y1.1 - z.2.1)
  have memL : ∀ z, z ∈ L ↔ z.2 ∈ S ∧ ((z.1 = 0 ∧ z.2 ≠ x0) ∨ (z.1 = 1 ∧ z.2 ≠ x1) ∨ (z.1 = 2 ∧ z.2 ≠ y0) ∨ (z.1 = 3 ∧ z.2 ≠ y1)) := by
    rintro ⟨i, q⟩
    simp only [L, List.mem_append, List.mem_map, List.mem_filter, Prod.mk.injEq, decide_eq_true_eq]
    constructor
    · rintro (((⟨a, ⟨h1, h2⟩, rfl, rfl⟩ | ⟨a, ⟨h1, h2⟩, rfl, rfl⟩) | ⟨a, ⟨h1, h2⟩, rfl, rfl⟩) | ⟨a, ⟨h1, h2⟩, rfl, rfl⟩)
      · exact ⟨h1, Or.inl ⟨rfl, h2⟩⟩
      · exact ⟨h1, Or.inr (Or.inl ⟨rfl, h2⟩)⟩
      · exact ⟨h1, Or.inr (Or.inr (Or.inl ⟨rfl, h2⟩))⟩
      · exact ⟨h1, Or.inr (Or.inr (Or.inr ⟨rfl, h2⟩))⟩
    · rintro ⟨h1, ⟨rfl, h2⟩ | ⟨rfl, h2⟩ | ⟨rfl, h2⟩ | ⟨rfl, h2⟩⟩
      · exact Or.inl (Or.inl (Or.inl ⟨q, ⟨h1, h2⟩, rfl, rfl⟩))
      · exact Or.inl (Or.inl (Or.inr ⟨q, ⟨h1, h2⟩, rfl, rfl⟩))
      · exact Or.inl (Or.inr ⟨q, ⟨h1, h2⟩, rfl, rfl⟩)
      · exact Or.inr ⟨q, ⟨h1, h2⟩, rfl, rfl⟩
  have a0 : ∀ q, A (0, q) = q.1 - x0.1 := fun q => rfl
  have a1 : ∀ q, A (1, q) = x1.1 - q.1 := fun q => rfl
  have a2 : ∀ q, A (2, q) = q.2 - y0.2 := fun q => rfl
  have a3 : ∀ q, A (3, q) = y1.2 - q.2 := fun q => rfl
  have b0 : ∀ q, B (0, q) = -σ * (q.2 - x0.2) := fun q => rfl
  have b1 : ∀ q, B (1, q) = -σ * (x1.2 - q.2) := fun q => rfl
  have b2 : ∀ q, B (2, q) = σ * (q.1 - y0.1) := fun q => rfl
  have b3 : ∀ q, B (3, q) = σ * (y1.1 - q.1) := fun q => rfl
  have hA : ∀ z ∈ L, 0 < A z := by
    rintro ⟨i, q⟩ hz
    obtain ⟨hq, ⟨h, hn⟩ | ⟨h, hn⟩ | ⟨h, hn⟩ | ⟨h, hn⟩⟩ := (memL _).1 hz <;> simp only at h hn hq <;> subst h
    · rw [a0]; exact px0 q hq hn
    · rw [a1]; exact px1 q hq hn
    · rw [a2]; exact py0 q hq hn
    · rw [a3]; exact py1 q hq hn
  have hB : ∃ z ∈ L, 0 < B z := by
    by_contra hcon
    push Not at hcon
    rcases hσ with rfl | rfl
    · -- `x1` is the top point, and the top point is the left one
      have e1 : x1 = y1 := by
        by_contra hn
        have h1 := py1 x1 m1 hn
        have h2 := hcon (1, y1) ((memL _).2 ⟨n1, Or.inr (Or.inl ⟨rfl, fun h => hn h.symm⟩)⟩)
        rw [b1] at h2
        linarith
      have e2 : y1 = x0 := by
        by_contra hn
        have h1 := px0 y1 n1 hn
        have h2 := hcon (3, x0) ((memL _).2 ⟨m0, Or.inr (Or.inr (Or.inr ⟨rfl, fun h => hn h.symm⟩))⟩)
        rw [b3] at h2
        linarith
      exact hne (by rw [e1, e2])
    · have e1 : x1 = y0 := by
        by_contra hn
        have h1 := py0 x1 m1 hn
        have h2 := hcon (1, y0) ((memL _).2 ⟨n0, Or.inr (Or.inl ⟨rfl, fun h => hn h.symm⟩)⟩)
        rw [b1] at h2
        linarith
      have e2 : y0 = x0 := by
        by_contra hn
        have h1 := px0 y0 n0 hn
        have h2 := hcon (2, x0) ((memL _).2 ⟨m0, Or.inr (Or.inr (Or.inl ⟨rfl, fun h => hn h.symm⟩))⟩)
        rw [b2] at h2
        linarith
      exact hne (by rw [e1, e2])
  obtain ⟨t, tp, hall, ⟨i, q⟩, hz, hzero⟩ := first_zero L A B hA hB
  refine ⟨t, tp, ⟨?_, ?_, ?_, ?_⟩, ?_⟩
  · intro q hq
    by_cases hn : q = x0
    · rw [hn]; simp
    · have := hall (0, q) ((memL _).2 ⟨hq, Or.inl ⟨rfl, hn⟩⟩)
      rw [a0, b0] at this; linarith
  · intro q hq
    by_cases hn : q = x1
    · rw [hn]; simp
    · have := hall (1, q) ((memL _).2 ⟨hq, Or.inr (Or.inl ⟨rfl, hn⟩)⟩)
      rw [a1, b1] at this; linarith
  · intro q hq
    by_cases hn : q = y0
    · rw [hn]; simp
    · have := hall (2, q) ((memL _).2 ⟨hq, Or.inr (Or.inr (Or.inl ⟨rfl, hn⟩))⟩)
      rw [a2, b2] at this; linarith
  · intro q hq
    by_cases hn : q = y1
    · rw [hn]; simp
    · have := hall (3, q) ((memL _).2 ⟨hq, Or.inr (Or.inr (Or.inr ⟨rfl, hn⟩))⟩)
      rw [a3, b3] at this; linarith
  · obtain ⟨hq, ⟨h, hn⟩ | ⟨h, hn⟩ | ⟨h, hn⟩ | ⟨h, hn⟩⟩ := (memL _).1 hz <;> simp only at h hn hq <;> subst h
    · rw [a0, b0] at hzero
      exact ⟨q, hq, Or.inl ⟨hn, by linarith⟩⟩
    · rw [a1, b1] at hzero
      exact ⟨q, hq, Or.inr (Or.inl ⟨hn, by linarith⟩)⟩
    · rw [a2, b2] at hzero
      exact ⟨q, hq, Or.inr (Or.inr (Or.inl ⟨hn, by linarith⟩))⟩
    · rw [a3, b3] at hzero
      exact ⟨q, hq, Or.inr (Or.inr (Or.inr ⟨hn, by linarith⟩))⟩

/-- In the right sense the area does not grow, as long as the sides are not negative. -/
theorem turn_area {P Q p q t : ℝ} (hP : 0 < P) (hQ : 0 ≤ Q) (ht : 0 ≤ t) (h : p * Q ≤ P * q) (h1 : 0 ≤ P + t * p)
    (h2 : 0 ≤ Q - t * q) : (P + t * p) * (Q - t * q) ≤ P * Q * (1 + t ^ 2) := by
  by_cases hpq : 0 ≤ p * q + P * Q
  · have e : P * Q * (1 + t ^ 2) - (P + t * p) * (Q - t * q) = t * (P * q - p * Q) + t ^ 2 * (p * q + P * Q) := by ring
    have := mul_nonneg ht (by linarith : 0 ≤ P * q - p * Q)
    have := mul_nonneg (sq_nonneg t) hpq
    linarith
  · have hPQ := mul_nonneg hP.le hQ
    have hneg : p * q < 0 := by linarith
    have hp : p < 0 := by
      by_contra hp
      push Not at hp
      have hq : q < 0 := by
        by_contra hq
        have := mul_nonneg hp (not_lt.1 hq)
        linarith
      have := mul_nonneg hp hQ
      have := mul_pos_of_neg_of_neg hq (by linarith : -P < 0)
      linarith
    have hq : 0 < q := by
      by_contra hq
      have := mul_nonneg_of_nonpos_of_nonpos hp.le (not_lt.1 hq)
      linarith
    have g1 : P + t * p ≤ P := by
      have := mul_nonneg ht (by linarith : 0 ≤ -p)
      linarith
    have g2 : Q - t * q ≤ Q := by
      have := mul_nonneg ht hq.le
      linarith
    have := mul_le_mul g1 g2 h2 hP.le
    have := mul_nonneg hPQ (sq_nonneg t)
    linarith

/-- What `convex_hull_2d` gives: a closed list with all points on the right of every edge. -/
structure HullList (S : List (ℝ × ℝ)) : Prop where
  chain : S.IsChain fun a b => ∀ p ∈ S, (b.1 - a.1) * (p.2 - a.2) ≤ (b.2 - a.2) * (p.1 - a.1)
  closed : S.head? = S.getLast?
  nodup : S.tail.Nodup
  len : 3 ≤ S.length

theorem edges_mem {S : List (ℝ × ℝ)} {l r : List (ℝ × ℝ)} {a b : ℝ × ℝ} (h : S = l ++ a :: b :: r) :
    (b.1 - a.1, b.2 - a.2) ∈ edges S := by
  subst h
  induction l with
  | nil => simp [edges]
  | cons c l ih =>
    cases l with
    | nil => simp [edges]
    | cons d l =>
      simp only [List.cons_append] at ih ⊢
      simp only [edges, List.mem_cons]
      exact Or.inr ih

/-- Every point of the list has a following one. -/
theorem HullList.next {S : List (ℝ × ℝ)} (h : HullList S) {x : ℝ × ℝ} (hx : x ∈ S) :
    ∃ l b r, S = l ++ x :: b :: r ∧ x ≠ b := by
  obtain ⟨l, r, hS⟩ := List.append_of_mem hx
  have hlen := h.len
  cases r with
  | cons b r =>
    refine ⟨l, b, r, hS, ?_⟩
    have hnd := h.nodup
    cases l with
    | cons c l =>
      rw [hS] at hnd
      simp only [List.cons_append, List.tail_cons] at hnd
      have := (List.nodup_append.1 hnd).2.1
      intro hxb
      subst hxb
      simp at this
    | nil =>
      rw [hS] at hnd hlen
      have hcl := h.closed
      rw [hS] at hcl
      simp only [List.nil_append, List.tail_cons, List.head?_cons] at hnd hcl hlen
      intro hxb
      subst hxb
      cases r with
      | nil => simp at hlen
      | cons d r =>
        rw [List.getLast?_cons_cons, List.getLast?_cons_cons] at hcl
        have hm : x ∈ d :: r := List.mem_of_getLast? hcl.symm
        rw [List.nodup_cons] at hnd
        exact hnd.1 hm
  | nil =>
    have hcl := h.closed
    match S, hlen with
    | s0 :: s1 :: s2 :: s, _ =>
      have hlast : (s0 :: s1 :: s2 :: s).getLast? = some x := by rw [hS]; simp
      rw [hlast] at hcl
      simp only [List.head?_cons, Option.some.injEq] at hcl
      subst hcl
      refine ⟨[], s1, s2 :: s, rfl, ?_⟩
      have hnd := h.nodup
      simp only [List.tail_cons] at hnd
      rw [List.getLast?_cons_cons, List.getLast?_cons_cons] at hlast
      have hm : s0 ∈ s2 :: s := List.mem_of_getLast? hlast
      rw [List.nodup_cons] at hnd
      intro hxb
      exact hnd.1 (hxb ▸ hm)

/-- Two points of the hull on a line with all points on one side of it: an edge of the hull is parallel to the line. -/
theorem HullList.edge {S : List (ℝ × ℝ)} (h : HullList S) {n x y : ℝ × ℝ} (hn : n ≠ 0) (hx : x ∈ S) (hy : y ∈ S) (hxy : y ≠ x)
    (heq : n.1 * (y.1 - x.1) + n.2 * (y.2 - x.2) = 0) (hs : ∀ q ∈ S, n.1 * (q.1 - x.1) + n.2 * (q.2 - x.2) ≤ 0) :
    ∃ e ∈ edges S, e ≠ 0 ∧ n.1 * e.1 + n.2 * e.2 = 0 := by
  obtain ⟨l1, b1, r1, e1, n1⟩ := h.next hx
  obtain ⟨l2, b2, r2, e2, n2⟩ := h.next hy
  have mb1 : b1 ∈ S := by rw [e1]; simp
  have mb2 : b2 ∈ S := by rw [e2]; simp
  have c1 : (b1.1 - x.1) * (y.2 - x.2) ≤ (b1.2 - x.2) * (y.1 - x.1) := by
    have hc := h.chain
    conv at hc => arg 2; rw [e1]
    rw [List.isChain_append] at hc
    exact (List.isChain_cons_cons.1 hc.2.1).1 y hy
  have c2 : (b2.1 - y.1) * (x.2 - y.2) ≤ (b2.2 - y.2) * (x.1 - y.1) := by
    have hc := h.chain
    conv at hc => arg 2; rw [e2]
    rw [List.isChain_append] at hc
    exact (List.isChain_cons_cons.1 hc.2.1).1 x hx
  by_cases z1 : n.1 * (b1.1 - x.1) + n.2 * (b1.2 - x.2) = 0
  · refine ⟨_, edges_mem e1, fun h0 => n1 ?_, z1⟩
    have h1 : b1.1 - x.1 = 0 := congrArg Prod.fst h0
    have h2 : b1.2 - x.2 = 0 := congrArg Prod.snd h0
    exact Prod.ext (by linarith) (by linarith)
  by_cases z2 : n.1 * (b2.1 - y.1) + n.2 * (b2.2 - y.2) = 0
  · refine ⟨_, edges_mem e2, fun h0 => n2 ?_, z2⟩
    have h1 : b2.1 - y.1 = 0 := congrArg Prod.fst h0
    have h2 : b2.2 - y.2 = 0 := congrArg Prod.snd h0
    exact Prod.ext (by linarith) (by linarith)
  exfalso
  have s1 : n.1 * (b1.1 - x.1) + n.2 * (b1.2 - x.2) < 0 := lt_of_le_of_ne (hs b1 mb1) z1
  have s2 : n.1 * (b2.1 - y.1) + n.2 * (b2.2 - y.2) < 0 := by
    refine lt_of_le_of_ne ?_ z2
    have := hs b2 mb2
    linarith
  -- `y - x = lam * (-n.2, n.1)`
  have hnn : 0 < n.1 ^ 2 + n.2 ^ 2 := by
    rcases eq_or_ne n.1 0 with h1 | h1
    · rcases eq_or_ne n.2 0 with h2 | h2
      · exact absurd (Prod.ext h1 h2) hn
      · positivity
    · positivity
  set lam := (n.1 * (y.2 - x.2) - n.2 * (y.1 - x.1)) / (n.1 ^ 2 + n.2 ^ 2) with hlam
  have hl : lam * (n.1 ^ 2 + n.2 ^ 2) = n.1 * (y.2 - x.2) - n.2 * (y.1 - x.1) := by
    rw [hlam, div_mul_cancel₀ _ hnn.ne']
  have hy1 : y.1 - x.1 = lam * -n.2 := by
    have : (y.1 - x.1 - lam * -n.2) * (n.1 ^ 2 + n.2 ^ 2) = 0 := by linear_combination n.1 * heq + n.2 * hl
    have := (mul_eq_zero.1 this).resolve_right hnn.ne'
    linarith
  have hy2 : y.2 - x.2 = lam * n.1 := by
    have : (y.2 - x.2 - lam * n.1) * (n.1 ^ 2 + n.2 ^ 2) = 0 := by linear_combination n.2 * heq - n.1 * hl
    have := (mul_eq_zero.1 this).resolve_right hnn.ne'
    linarith
  rw [hy1, hy2] at c1
  have hx1 : x.1 - y.1 = lam * n.2 := by linarith
  have hx2 : x.2 - y.2 = -(lam * n.1) := by linarith
  rw [hx1, hx2] at c2
  have d1 : lam * (n.1 * (b1.1 - x.1) + n.2 * (b1.2 - x.2)) ≤ 0 := by linarith
  have d2 : 0 ≤ lam * (n.1 * (b2.1 - y.1) + n.2 * (b2.2 - y.2)) := by linarith
  have l0 : 0 ≤ lam := by
    by_contra hc
    have := mul_pos_of_neg_of_neg (not_le.1 hc) s1
    linarith
  have l1 : lam ≤ 0 := by
    by_contra hc
    have := mul_neg_of_pos_of_neg (not_le.1 hc) s2
    linarith
  have : lam = 0 := le_antisymm l1 l0
  rw [this] at hy1 hy2
  apply hxy
  exact Prod.ext (by linarith) (by linarith)

/-- `A` is at most the area of the rectangles around `S` with a side along an edge. -/
def LeEdge (S : List (ℝ × ℝ)) (A : ℝ) : Prop :=
  ∀ e ∈ edges S, e ≠ 0 → ∀ c s : ℝ, c ^ 2 + s ^ 2 = 1 → c * e.2 = s * e.1 → ∀ a b u v : ℝ,
    (∀ x ∈ S, a ≤ c * x.1 + s * x.2 ∧ c * x.1 + s * x.2 ≤ b ∧ u ≤ -s * x.1 + c * x.2 ∧ -s * x.1 + c * x.2 ≤ v) →
    A ≤ (b - a) * (v - u)

/-- A rectangle with sides along `w` and two points on one side is not smaller. -/
theorem tie_area {S : List (ℝ × ℝ)} (h : HullList S) {A : ℝ} (hE : LeEdge S A) {w : ℝ × ℝ} {r : ℝ} (hr : 0 < r)
    (hr2 : r ^ 2 = w.1 ^ 2 + w.2 ^ 2) {a b u v : ℝ}
    (hb : ∀ x ∈ S, a ≤ w.1 * x.1 + w.2 * x.2 ∧ w.1 * x.1 + w.2 * x.2 ≤ b ∧ u ≤ -w.2 * x.1 + w.1 * x.2 ∧
      -w.2 * x.1 + w.1 * x.2 ≤ v)
    {x y : ℝ × ℝ} (hx : x ∈ S) (hy : y ∈ S) (hxy : y ≠ x)
    (ht : (w.1 * x.1 + w.2 * x.2 = a ∧ w.1 * y.1 + w.2 * y.2 = a) ∨ (w.1 * x.1 + w.2 * x.2 = b ∧ w.1 * y.1 + w.2 * y.2 = b) ∨
      (-w.2 * x.1 + w.1 * x.2 = u ∧ -w.2 * y.1 + w.1 * y.2 = u) ∨ (-w.2 * x.1 + w.1 * x.2 = v ∧ -w.2 * y.1 + w.1 * y.2 = v)) :
    A * r ^ 2 ≤ (b - a) * (v - u) := by
  have hw0 : w ≠ 0 := by
    rintro rfl
    simp at hr2
    exact hr.ne' hr2
  have hr' : 0 < r ^ 2 := by positivity
  have conv : ∀ z : ℝ, z * r ^ 2 ≤ (b - a) * (v - u) ↔ z ≤ (b - a) / r * ((v - u) / r) := by
    intro z
    rw [div_mul_div_comm, ← sq, le_div_iff₀ hr']
  have unit : (w.1 / r) ^ 2 + (w.2 / r) ^ 2 = 1 := by
    rw [div_pow, div_pow, ← add_div, ← hr2, div_self hr'.ne']
  -- an edge along `w`
  have along : (∃ e ∈ edges S, e ≠ 0 ∧ -w.2 * e.1 + w.1 * e.2 = 0) → A * r ^ 2 ≤ (b - a) * (v - u) := by
    rintro ⟨e, he, hne, h0⟩
    have := hE e he hne (w.1 / r) (w.2 / r) unit (by field_simp; linarith) (a / r) (b / r) (u / r) (v / r) (fun q hq => by
      obtain ⟨h1, h2, h3, h4⟩ := hb q hq
      have e1 : w.1 / r * q.1 + w.2 / r * q.2 = (w.1 * q.1 + w.2 * q.2) / r := by ring
      have e2 : -(w.2 / r) * q.1 + w.1 / r * q.2 = (-w.2 * q.1 + w.1 * q.2) / r := by ring
      rw [e1, e2]
      exact ⟨div_le_div_of_nonneg_right h1 hr.le, div_le_div_of_nonneg_right h2 hr.le,
        div_le_div_of_nonneg_right h3 hr.le, div_le_div_of_nonneg_right h4 hr.le⟩)
    rw [conv]
    calc A ≤ _ := this
      _ = _ := by ring
  -- an edge across
  have across : (∃ e ∈ edges S, e ≠ 0 ∧ w.1 * e.1 + w.2 * e.2 = 0) → A * r ^ 2 ≤ (b - a) * (v - u) := by
    rintro ⟨e, he, hne, h0⟩
    have := hE e he hne (-w.2 / r) (w.1 / r) (by rw [neg_div, neg_sq]; linarith) (by field_simp; linarith)
      (u / r) (v / r) (-b / r) (-a / r) (fun q hq => by
      obtain ⟨h1, h2, h3, h4⟩ := hb q hq
      have e1 : -w.2 / r * q.1 + w.1 / r * q.2 = (-w.2 * q.1 + w.1 * q.2) / r := by ring
      have e2 : -(w.1 / r) * q.1 + -w.2 / r * q.2 = -(w.1 * q.1 + w.2 * q.2) / r := by ring
      rw [e1, e2]
      exact ⟨div_le_div_of_nonneg_right h3 hr.le, div_le_div_of_nonneg_right h4 hr.le,
        div_le_div_of_nonneg_right (by linarith) hr.le, div_le_div_of_nonneg_right (by linarith) hr.le⟩)
    rw [conv]
    calc A ≤ _ := this
      _ = _ := by ring
  have hwn : ((-w.1, -w.2) : ℝ × ℝ) ≠ 0 := fun h0 => hw0 (Prod.ext (by simpa using congrArg Prod.fst h0)
    (by simpa using congrArg Prod.snd h0))
  have hwp : ((-w.2, w.1) : ℝ × ℝ) ≠ 0 := fun h0 => hw0 (Prod.ext (by simpa using congrArg Prod.snd h0)
    (by simpa using congrArg Prod.fst h0))
  have hwm : ((w.2, -w.1) : ℝ × ℝ) ≠ 0 := fun h0 => hw0 (Prod.ext (by simpa using congrArg Prod.snd h0)
    (by simpa using congrArg Prod.fst h0))
  rcases ht with ⟨t1, t2⟩ | ⟨t1, t2⟩ | ⟨t1, t2⟩ | ⟨t1, t2⟩
  · obtain ⟨e, he, hne, h0⟩ := h.edge hwn hx hy hxy (by simp only; linarith) (fun q hq => by
      have := (hb q hq).1; simp only; linarith)
    exact across ⟨e, he, hne, by simp only at h0; linarith⟩
  · obtain ⟨e, he, hne, h0⟩ := h.edge hw0 hx hy hxy (by linarith) (fun q hq => by
      have := (hb q hq).2.1; linarith)
    exact across ⟨e, he, hne, h0⟩
  · obtain ⟨e, he, hne, h0⟩ := h.edge hwm hx hy hxy (by simp only; linarith) (fun q hq => by
      have := (hb q hq).2.2.1; simp only; linarith)
    exact along ⟨e, he, hne, by simp only at h0; linarith⟩
  · obtain ⟨e, he, hne, h0⟩ := h.edge hwp hx hy hxy (by simp only; linarith) (fun q hq => by
      have := (hb q hq).2.2.2; simp only; linarith)
    exact along ⟨e, he, hne, by simp only at h0; linarith⟩

/-- What is at most the area of the rectangles along the edges is at most the area of every rectangle around the points. -/
theorem le_all {S : List (ℝ × ℝ)} (h : HullList S) {A : ℝ} (hE : LeEdge S A) {c s : ℝ} (hcs : c ^ 2 + s ^ 2 = 1) {a b u v : ℝ}
    (hb : ∀ x ∈ S, a ≤ c * x.1 + s * x.2 ∧ c * x.1 + s * x.2 ≤ b ∧ u ≤ -s * x.1 + c * x.2 ∧ -s * x.1 + c * x.2 ≤ v) :
    A ≤ (b - a) * (v - u) := by
  have hlen := h.len
  obtain ⟨p, T, hS⟩ : ∃ p T, S = p :: T := by
    cases S with
    | nil => simp at hlen
    | cons p T => exact ⟨p, T, rfl⟩
  -- points in the turned coordinates
  let φ : ℝ × ℝ → ℝ × ℝ := fun x => (c * x.1 + s * x.2, -s * x.1 + c * x.2)
  have φinj : ∀ x y, φ x = φ y → x = y := by
    intro x y hxy
    have h1 : c * x.1 + s * x.2 = c * y.1 + s * y.2 := congrArg Prod.fst hxy
    have h2 : -s * x.1 + c * x.2 = -s * y.1 + c * y.2 := congrArg Prod.snd hxy
    refine Prod.ext ?_ ?_
    · linear_combination c * h1 - s * h2 - (x.1 - y.1) * hcs
    · linear_combination s * h1 + c * h2 - (x.2 - y.2) * hcs
  set x0 := argmax (fun x => -(φ x).1) p T with hx0
  set x1 := argmax (fun x => (φ x).1) p T with hx1
  set y0 := argmax (fun x => -(φ x).2) p T with hy0
  set y1 := argmax (fun x => (φ x).2) p T with hy1
  have mx0 : x0 ∈ S := hS ▸ argmax_mem _ _ _
  have mx1 : x1 ∈ S := hS ▸ argmax_mem _ _ _
  have my0 : y0 ∈ S := hS ▸ argmax_mem _ _ _
  have my1 : y1 ∈ S := hS ▸ argmax_mem _ _ _
  have bx0 : ∀ q ∈ S, (φ x0).1 ≤ (φ q).1 := fun q hq => by
    have := le_argmax (fun x => -(φ x).1) p T q (hS ▸ hq)
    simp only [neg_le_neg_iff] at this
    exact this
  have bx1 : ∀ q ∈ S, (φ q).1 ≤ (φ x1).1 := fun q hq => le_argmax (fun x => (φ x).1) p T q (hS ▸ hq)
  have by0 : ∀ q ∈ S, (φ y0).2 ≤ (φ q).2 := fun q hq => by
    have := le_argmax (fun x => -(φ x).2) p T q (hS ▸ hq)
    simp only [neg_le_neg_iff] at this
    exact this
  have by1 : ∀ q ∈ S, (φ q).2 ≤ (φ y1).2 := fun q hq => le_argmax (fun x => (φ x).2) p T q (hS ▸ hq)
  have hP : 0 ≤ (φ x1).1 - (φ x0).1 := by linarith [bx0 x1 mx1]
  have hQ : 0 ≤ (φ y1).2 - (φ y0).2 := by linarith [by0 y1 my1]
  have red : ((φ x1).1 - (φ x0).1) * ((φ y1).2 - (φ y0).2) ≤ (b - a) * (v - u) := by
    have k1 : (φ x1).1 - (φ x0).1 ≤ b - a := by
      have e1 := (hb x1 mx1).2.1
      have e2 := (hb x0 mx0).1
      show (c * x1.1 + s * x1.2) - (c * x0.1 + s * x0.2) ≤ b - a
      linarith
    have k2 : (φ y1).2 - (φ y0).2 ≤ v - u := by
      have e1 := (hb y1 my1).2.2.2
      have e2 := (hb y0 my0).2.2.1
      show (-s * y1.1 + c * y1.2) - (-s * y0.1 + c * y0.2) ≤ v - u
      linarith
    exact mul_le_mul k1 k2 hQ (by linarith)
  refine le_trans ?_ red
  -- a rectangle with a tie
  have tied : ∀ τ : ℝ, Bounds (S.map φ) τ (φ x0) (φ x1) (φ y0) (φ y1) → Tie (S.map φ) τ (φ x0) (φ x1) (φ y0) (φ y1) →
      A * (1 + τ ^ 2) ≤ (((φ x1).1 - (φ x0).1) + τ * ((φ x1).2 - (φ x0).2)) *
        (((φ y1).2 - (φ y0).2) - τ * ((φ y1).1 - (φ y0).1)) := by
    intro τ hB hT
    have hr : 0 < Real.sqrt (1 + τ ^ 2) := Real.sqrt_pos.2 (by positivity)
    have hr2 : Real.sqrt (1 + τ ^ 2) ^ 2 = 1 + τ ^ 2 := Real.sq_sqrt (by positivity)
    let w : ℝ × ℝ := (c - τ * s, s + τ * c)
    have w1 : ∀ x : ℝ × ℝ, w.1 * x.1 + w.2 * x.2 = (φ x).1 + τ * (φ x).2 := by
      intro x; show (c - τ * s) * x.1 + (s + τ * c) * x.2 = (c * x.1 + s * x.2) + τ * (-s * x.1 + c * x.2); ring
    have w2 : ∀ x : ℝ × ℝ, -w.2 * x.1 + w.1 * x.2 = (φ x).2 - τ * (φ x).1 := by
      intro x; show -(s + τ * c) * x.1 + (c - τ * s) * x.2 = (-s * x.1 + c * x.2) - τ * (c * x.1 + s * x.2); ring
    have wr : Real.sqrt (1 + τ ^ 2) ^ 2 = w.1 ^ 2 + w.2 ^ 2 := by
      rw [hr2]; show 1 + τ ^ 2 = (c - τ * s) ^ 2 + (s + τ * c) ^ 2
      linear_combination (-(1 + τ ^ 2)) * hcs
    have hall : ∀ x ∈ S, (φ x0).1 + τ * (φ x0).2 ≤ w.1 * x.1 + w.2 * x.2 ∧ w.1 * x.1 + w.2 * x.2 ≤ (φ x1).1 + τ * (φ x1).2 ∧
        (φ y0).2 - τ * (φ y0).1 ≤ -w.2 * x.1 + w.1 * x.2 ∧ -w.2 * x.1 + w.1 * x.2 ≤ (φ y1).2 - τ * (φ y1).1 := by
      intro x hx
      have hm : φ x ∈ S.map φ := List.mem_map.2 ⟨x, hx, rfl⟩
      rw [w1, w2]
      have := hB.bx0 _ hm
      have := hB.bx1 _ hm
      have := hB.by0 _ hm
      have := hB.by1 _ hm
      refine ⟨?_, ?_, ?_, ?_⟩ <;> linarith
    obtain ⟨q', hq', hcase⟩ := hT
    obtain ⟨q, hq, rfl⟩ := List.mem_map.1 hq'
    have fin : ∀ x, x ∈ S → q ≠ x → ((w.1 * x.1 + w.2 * x.2 = (φ x0).1 + τ * (φ x0).2 ∧ w.1 * q.1 + w.2 * q.2 = (φ x0).1 + τ * (φ x0).2) ∨
        (w.1 * x.1 + w.2 * x.2 = (φ x1).1 + τ * (φ x1).2 ∧ w.1 * q.1 + w.2 * q.2 = (φ x1).1 + τ * (φ x1).2) ∨
        (-w.2 * x.1 + w.1 * x.2 = (φ y0).2 - τ * (φ y0).1 ∧ -w.2 * q.1 + w.1 * q.2 = (φ y0).2 - τ * (φ y0).1) ∨
        (-w.2 * x.1 + w.1 * x.2 = (φ y1).2 - τ * (φ y1).1 ∧ -w.2 * q.1 + w.1 * q.2 = (φ y1).2 - τ * (φ y1).1)) → _ :=
      fun x hx hne ht => tie_area h hE hr wr hall hx hq hne ht
    rw [hr2] at fin
    have goal : A * (1 + τ ^ 2) ≤ ((φ x1).1 + τ * (φ x1).2 - ((φ x0).1 + τ * (φ x0).2)) *
        ((φ y1).2 - τ * (φ y1).1 - ((φ y0).2 - τ * (φ y0).1)) := by
      rcases hcase with ⟨hn, h0⟩ | ⟨hn, h0⟩ | ⟨hn, h0⟩ | ⟨hn, h0⟩
      · exact fin x0 mx0 (fun hh => hn (by rw [hh])) (Or.inl ⟨w1 x0, by rw [w1]; linarith⟩)
      · exact fin x1 mx1 (fun hh => hn (by rw [hh])) (Or.inr (Or.inl ⟨w1 x1, by rw [w1]; linarith⟩))
      · exact fin y0 my0 (fun hh => hn (by rw [hh])) (Or.inr (Or.inr (Or.inl ⟨w2 y0, by rw [w2]; linarith⟩)))
      · exact fin y1 my1 (fun hh => hn (by rw [hh])) (Or.inr (Or.inr (Or.inr ⟨w2 y1, by rw [w2]; linarith⟩)))
    calc _ ≤ _ := goal
      _ = _ := by ring
  have hB0 : Bounds (S.map φ) 0 (φ x0) (φ x1) (φ y0) (φ y1) := by
    refine ⟨?_, ?_, ?_, ?_⟩ <;> intro q' hq' <;> obtain ⟨q, hq, rfl⟩ := List.mem_map.1 hq'
    · have := bx0 q hq; linarith
    · have := bx1 q hq; linarith
    · have := by0 q hq; linarith
    · have := by1 q hq; linarith
  by_cases hT : Tie (S.map φ) 0 (φ x0) (φ x1) (φ y0) (φ y1)
  · have := tied 0 hB0 hT
    simpa using this
  -- two different points
  have hne : φ x0 ≠ φ x1 := by
    intro he
    obtain ⟨l, d, r, e, hd⟩ := h.next mx0
    have md : d ∈ S := by rw [e]; simp
    apply hT
    refine ⟨φ d, List.mem_map.2 ⟨d, md, rfl⟩, Or.inl ⟨fun hh => hd (φinj _ _ hh).symm, ?_⟩⟩
    have h1 := bx0 d md
    have h2 := bx1 d md
    rw [← he] at h2
    linarith
  have hPpos : 0 < (φ x1).1 - (φ x0).1 := by
    refine lt_of_le_of_ne hP fun h0 => hT ⟨φ x1, List.mem_map.2 ⟨x1, mx1, rfl⟩, Or.inl ⟨fun hh => hne hh.symm, ?_⟩⟩
    linarith
  have M : ∀ {x}, x ∈ S → φ x ∈ S.map φ := fun hx => List.mem_map.2 ⟨_, hx, rfl⟩
  set P := (φ x1).1 - (φ x0).1 with hPd
  set Q := (φ y1).2 - (φ y0).2 with hQd
  set k := (φ x1).2 - (φ x0).2 with hk
  set m := (φ y1).1 - (φ y0).1 with hm
  rcases le_total (k * Q) (P * m) with hle | hle
  · obtain ⟨t, tp, hB, hTt⟩ := turn (M mx0) (M mx1) (M my0) (M my1) hne hB0 hT (Or.inl rfl)
    have hres := tied (1 * t) hB hTt
    rw [one_mul] at hB hres
    have s1 : 0 ≤ P + t * k := hB.bx0 _ (M mx1)
    have s2 : 0 ≤ Q - t * m := hB.by0 _ (M my1)
    have := turn_area hPpos hQ tp.le hle s1 s2
    have hpos : 0 < 1 + t ^ 2 := by positivity
    exact le_of_mul_le_mul_right (hres.trans this) hpos
  · obtain ⟨t, tp, hB, hTt⟩ := turn (M mx0) (M mx1) (M my0) (M my1) hne hB0 hT (Or.inr rfl)
    have hres := tied (-1 * t) hB hTt
    have s1 : 0 ≤ P + t * -k := by have := hB.bx0 _ (M mx1); linarith
    have s2 : 0 ≤ Q - t * -m := by have := hB.by0 _ (M my1); linarith
    have := turn_area hPpos hQ tp.le (by linarith : -k * Q ≤ P * -m) s1 s2
    have hpos : 0 < 1 + t ^ 2 := by positivity
    refine le_of_mul_le_mul_right (a := 1 + t ^ 2) ?_ hpos
    calc A * (1 + t ^ 2) = A * (1 + (-1 * t) ^ 2) := by ring
      _ ≤ _ := hres
      _ = (P + t * -k) * (Q - t * -m) := by ring
      _ ≤ _ := this

/-- **C96**: for more than two points that are not on one vertical line, `min_bounding_rect(convex_hull_2d(points))`
(bspline_approx.py:344-345) is a rectangle that contains all the points, and its area is the least of all rectangles that
contain them: rectangles with sides along the unit vectors `(c, s)` and `(-s, c)`, for every direction. -/
theorem rect_minimal {pts : List (ℝ × ℝ)} (h3 : 2 < pts.length) (hx : ∃ p ∈ pts, ∃ q ∈ pts, p.1 ≠ q.1) :
    ∃ p l c0 c1 c2 c3, convexHull2d pts = p :: l ∧ minBoundingRect p l = [c0, c1, c2, c3] ∧
      (c0.1 - c1.1) * (c2.1 - c1.1) + (c0.2 - c1.2) * (c2.2 - c1.2) = 0 ∧ c3 = (c0.1 + c2.1 - c1.1, c0.2 + c2.2 - c1.2) ∧
      (∀ x ∈ pts, x ∈ convexHull ℝ {c0, c1, c2, c3}) ∧
      ∀ c s : ℝ, c ^ 2 + s ^ 2 = 1 → ∀ a b u v : ℝ,
        (∀ x ∈ pts, a ≤ c * x.1 + s * x.2 ∧ c * x.1 + s * x.2 ≤ b ∧ u ≤ -s * x.1 + c * x.2 ∧ -s * x.1 + c * x.2 ≤ v) →
        areaOf c0 c1 c2 ≤ (b - a) * (v - u) := by
  obtain ⟨hin, hhull, hchain, hclosed, hnodup, hlen⟩ := hull_correct h3 hx
  obtain ⟨p, q, l, hS⟩ : ∃ p q l, convexHull2d pts = p :: q :: l := by
    match hc : convexHull2d pts, hlen with
    | p :: q :: l, _ => exact ⟨p, q, l, rfl⟩
  have hH : HullList (p :: q :: l) := by
    rw [hS] at hchain hclosed hnodup hlen hin
    exact ⟨hchain.imp fun a b hab x hx => hab x (hin x hx), hclosed, hnodup, hlen⟩
  obtain ⟨c0, c1, c2, c3, e1, e2, e3, e4, e5⟩ := rect_spec p q l
  refine ⟨p, q :: l, c0, c1, c2, c3, hS, e1, e2, e3, fun x hx => ?_, fun c s hcs a b u v hb => ?_⟩
  · have h1 : x ∈ convexHull ℝ {y | y ∈ convexHull2d pts} := by
      rw [hhull]; exact subset_convexHull ℝ _ hx
    have h2 : {y | y ∈ convexHull2d pts} ⊆ convexHull ℝ ({c0, c1, c2, c3} : Set (ℝ × ℝ)) := by
      intro y hy
      rw [hS] at hy
      exact e4 y hy
    exact convexHull_min h2 (convex_convexHull ℝ _) h1
  · refine le_all hH e5 hcs fun x hx => hb x (hin x ?_)
    rw [hS]; exact hx

/-- The corners of a square standing on a corner and its centre: the rectangle along the axes has the area 4, the returned one
at most 2. -/
example : ∃ p l c0 c1 c2 c3, convexHull2d [((1 : ℝ), (0 : ℝ)), (0, 1), (-1, 0), (0, -1), (0, 0)] = p :: l ∧
    minBoundingRect p l = [c0, c1, c2, c3] ∧ areaOf c0 c1 c2 ≤ 2 := by
  obtain ⟨p, l, c0, c1, c2, c3, h1, h2, -, -, -, h⟩ := rect_minimal
    (pts := [((1 : ℝ), (0 : ℝ)), (0, 1), (-1, 0), (0, -1), (0, 0)]) (by simp)
    ⟨(1, 0), by simp, (0, 1), by simp, by norm_num⟩
  refine ⟨p, l, c0, c1, c2, c3, h1, h2, ?_⟩
  have hs : (Real.sqrt 2 / 2) ^ 2 = 1 / 2 := by
    rw [div_pow, Real.sq_sqrt (by norm_num)]; norm_num
  have hp : 0 ≤ Real.sqrt 2 / 2 := by positivity
  refine (h (Real.sqrt 2 / 2) (Real.sqrt 2 / 2) (by rw [hs]; norm_num) (-(Real.sqrt 2 / 2)) (Real.sqrt 2 / 2)
    (-(Real.sqrt 2 / 2)) (Real.sqrt 2 / 2) ?_).trans (by nlinarith [hs])
  intro x hx
  simp only [List.mem_cons, List.not_mem_nil, or_false] at hx
  rcases hx with rfl | rfl | rfl | rfl | rfl <;> refine ⟨?_, ?_, ?_, ?_⟩ <;> norm_num <;> linarith

end Verif.Approx
