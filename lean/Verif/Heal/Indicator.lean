import Verif.Heal.TetQuality

/-!
The other quality measures of triangles and tetrahedra (src/bgem/gmsh/heal_mesh.py:31-50, 86-93, 151-155) in exact arithmetic of
real numbers.
-/
namespace Verif.Heal

/-- `np.max` of a list of numbers that are not negative. -/
noncomputable def listMax (l : List ℝ) : ℝ := l.foldr max 0

theorem le_listMax {l : List ℝ} {x : ℝ} (hx : x ∈ l) : x ≤ listMax l := by
  induction l with
  | nil => simp at hx
  | cons y l ih =>
    simp only [listMax, List.foldr_cons]
    rcases List.mem_cons.1 hx with rfl | h
    · exact le_max_left _ _
    · exact le_trans (ih h) (le_max_right _ _)

theorem listMax_mem {l : List ℝ} (h0 : 0 < listMax l) : listMax l ∈ l := by
  induction l with
  | nil => simp [listMax] at h0
  | cons y l ih =>
    have e : listMax (y :: l) = max y (listMax l) := rfl
    rw [e] at h0 ⊢
    rcases le_total y (listMax l) with h | h
    · rw [max_eq_right h] at h0 ⊢
      exact List.mem_cons_of_mem _ (ih h0)
    · rw [max_eq_left h]; exact List.mem_cons_self

/-- `small_edge_ratio` (heal_mesh.py:32-35) of the edge lengths; the list is not empty. -/
noncomputable def smallEdgeRatio (l : List ℝ) : ℝ := l.foldr min (listMax l) / max tiny (listMax l)

/-- `flat_indicator` (heal_mesh.py:37-50) of a triangle. -/
noncomputable def flatTri (ns : List (V3 ℝ)) : ℝ :=
  let e := max tiny (listMax (edgeLens 3 ns))
  2 * |triArea (at3 ns 0) (at3 ns 1) (at3 ns 2)| / e / e

/-- `flat_indicator` (heal_mesh.py:37-50) of a tetrahedron. -/
noncomputable def flatTet (ns : List (V3 ℝ)) : ℝ :=
  6 * |tetVol ns| / max tiny (listMax (faceAreas ns)) / max tiny (listMax (edgeLens 4 ns))

/-- `Triangle.smooth_grad_error_indicator` (heal_mesh.py:151-155). -/
noncomputable def triSmooth (ns : List (V3 ℝ)) : ℝ :=
  4 / √3 * |triArea (at3 ns 0) (at3 ns 1) (at3 ns 2)| / max tiny ((edgeLens 3 ns).prod ^ (2 / 3 : ℝ))

/-- `e_faces` (heal_mesh.py:89) -/
def eFaces : List (Nat × Nat) := [(0, 1), (0, 2), (1, 2), (0, 3), (1, 3), (2, 3)]

/-- The sum in `Tetrahedron.smooth_grad_error_indicator` (heal_mesh.py:90). -/
noncomputable def sumPairs (ns : List (V3 ℝ)) : ℝ :=
  ((eFaces.zip (edgeLens 4 ns)).map fun p =>
    (faceAreas ns).getD p.1.1 0 * (faceAreas ns).getD p.1.2 0 * p.2 ^ 2).sum

/-- `Tetrahedron.smooth_grad_error_indicator` (heal_mesh.py:86-93). -/
noncomputable def tetSmooth (ns : List (V3 ℝ)) : ℝ :=
  |tetVol ns| * ((faceAreas ns).sum / max tiny (sumPairs ns)) ^ (3 / 4 : ℝ) / (2 * √(2 / 3) / 9)

theorem foldMin {l : List ℝ} {m : ℝ} : (∀ x ∈ l, l.foldr min m ≤ x) ∧ (l.foldr min m = m ∨ l.foldr min m ∈ l) ∧ l.foldr min m ≤ m := by
  induction l with
  | nil => simp
  | cons y l ih =>
    obtain ⟨h1, h2, h3⟩ := ih
    simp only [List.foldr_cons]
    refine ⟨?_, ?_, le_trans (min_le_right _ _) h3⟩
    · intro x hx
      rcases List.mem_cons.1 hx with rfl | h
      · exact min_le_left _ _
      · exact le_trans (min_le_right _ _) (h1 x h)
    · rcases min_choice y (l.foldr min m) with h | h
      · right; rw [h]; exact List.mem_cons_self
      · rw [h]
        rcases h2 with h | h
        · exact Or.inl h
        · exact Or.inr (List.mem_cons_of_mem _ h)

/-- **C137**: `small_edge_ratio` is the shortest edge by the longest, between 0 and 1, and 1 exactly if the edges have the same
length. -/
theorem smallEdge_range {l : List ℝ} (h0 : ∀ x ∈ l, 0 ≤ x) (ht : tiny ≤ listMax l) :
    (∃ a ∈ l, ∃ b ∈ l, (∀ x ∈ l, a ≤ x ∧ x ≤ b) ∧ smallEdgeRatio l = a / b) ∧
      0 ≤ smallEdgeRatio l ∧ smallEdgeRatio l ≤ 1 ∧ (smallEdgeRatio l = 1 ↔ ∀ x ∈ l, ∀ y ∈ l, x = y) := by
  have hp : 0 < listMax l := lt_of_lt_of_le tiny_pos ht
  have hm := listMax_mem hp
  obtain ⟨f1, f2, f3⟩ := foldMin (l := l) (m := listMax l)
  have hmem : l.foldr min (listMax l) ∈ l := by
    rcases f2 with h | h
    · rw [h]; exact hm
    · exact h
  have he : smallEdgeRatio l = l.foldr min (listMax l) / listMax l := by
    unfold smallEdgeRatio; rw [max_eq_right ht]
  refine ⟨⟨_, hmem, _, hm, fun x hx => ⟨f1 x hx, le_listMax hx⟩, he⟩, ?_, ?_, ?_⟩
  · rw [he]; exact div_nonneg (h0 _ hmem) hp.le
  · rw [he, div_le_one hp]; exact f3
  · rw [he, div_eq_one_iff_eq hp.ne']
    constructor
    · intro h x hx y hy
      have a1 := f1 x hx
      have a2 := f1 y hy
      have b1 := le_listMax hx
      have b2 := le_listMax hy
      rw [h] at a1 a2
      linarith
    · intro h; exact h _ hmem _ hm

/-- Two edges. -/
example : smallEdgeRatio [1, 2] = 1 / 2 := by
  have ht : tiny ≤ 1 := by
    unfold tiny
    exact (div_le_one (by positivity)).2 (one_le_pow₀ (by norm_num))
  have hm : listMax [1, 2] = 2 := by simp [listMax]
  unfold smallEdgeRatio
  rw [hm, max_eq_right (by linarith)]
  simp

/-! ### Triangles -/

theorem schur {x y z : ℝ} (hx : 0 ≤ x) (hy : 0 ≤ y) (hz : 0 ≤ z) :
    (x + y + z) * (2 * (x * y + y * z + z * x) - (x ^ 2 + y ^ 2 + z ^ 2)) ≤ 9 * (x * y * z) := by
  have key : ∀ a b c : ℝ, 0 ≤ c → c ≤ b → b ≤ a →
      (a + b + c) * (2 * (a * b + b * c + c * a) - (a ^ 2 + b ^ 2 + c ^ 2)) ≤ 9 * (a * b * c) := by
    intro a b c hc hcb hba
    have h1 : 0 ≤ (a - b) * (a * (a - c) - b * (b - c)) := by
      have : (a - b) * (a * (a - c) - b * (b - c)) = (a - b) ^ 2 * (a + b - c) := by ring
      rw [this]; exact mul_nonneg (sq_nonneg _) (by linarith)
    have h2 : 0 ≤ c * ((a - c) * (b - c)) := mul_nonneg hc (mul_nonneg (by linarith) (by linarith))
    have : 9 * (a * b * c) - (a + b + c) * (2 * (a * b + b * c + c * a) - (a ^ 2 + b ^ 2 + c ^ 2)) =
        (a - b) * (a * (a - c) - b * (b - c)) + c * ((a - c) * (b - c)) := by ring
    linarith
  rcases le_total x y with h | h <;> rcases le_total y z with h' | h' <;> rcases le_total x z with h'' | h''
  · have := key z y x hx h h'; nlinarith [this]
  · have := key z y x hx h h'; nlinarith [this]
  · have := key y z x hx h'' h'; nlinarith [this]
  · have := key y x z hz h'' h; nlinarith [this]
  · have := key z x y hy h h''; nlinarith [this]
  · have := key x z y hy h' h''; nlinarith [this]
  · have := key x y z hz h' h; nlinarith [this]
  · have := key x y z hz h' h; nlinarith [this]

/-- With `h` sixteen times the square of the area and `x y z` the squares of the edges. -/
theorem tri_area_bound {x y z h : ℝ} (hx : 0 ≤ x) (hy : 0 ≤ y) (hz : 0 ≤ z) (h0 : 0 ≤ h)
    (hh : h = 2 * (x * y + y * z + z * x) - (x ^ 2 + y ^ 2 + z ^ 2)) :
    h ^ 3 ≤ 27 * (x * y * z) ^ 2 ∧ (0 < h → h ^ 3 = 27 * (x * y * z) ^ 2 → x = y ∧ y = z) := by
  have h1 := schur hx hy hz
  rw [← hh] at h1
  have h2 : (x + y + z) ^ 2 - 3 * h = 2 * ((x - y) ^ 2 + (y - z) ^ 2 + (z - x) ^ 2) := by rw [hh]; ring
  have hS : 0 ≤ x + y + z := by linarith
  have h3 : ((x + y + z) * h) ^ 2 ≤ (9 * (x * y * z)) ^ 2 := pow_le_pow_left₀ (mul_nonneg hS h0) h1 2
  have h4 : 3 * h ^ 3 + 2 * ((x - y) ^ 2 + (y - z) ^ 2 + (z - x) ^ 2) * h ^ 2 = ((x + y + z) * h) ^ 2 := by
    rw [← h2]; ring
  have p1 : 0 ≤ (x - y) ^ 2 := sq_nonneg _
  have p2 : 0 ≤ (y - z) ^ 2 := sq_nonneg _
  have p3 : 0 ≤ (z - x) ^ 2 := sq_nonneg _
  have h5 : (9 * (x * y * z)) ^ 2 = 81 * (x * y * z) ^ 2 := by ring
  constructor
  · have : 0 ≤ 2 * ((x - y) ^ 2 + (y - z) ^ 2 + (z - x) ^ 2) * h ^ 2 := by positivity
    linarith
  · intro hp he
    have h6 : 2 * ((x - y) ^ 2 + (y - z) ^ 2 + (z - x) ^ 2) * h ^ 2 ≤ 0 := by linarith
    have hp2 : 0 < h ^ 2 := by positivity
    have h7 : 2 * ((x - y) ^ 2 + (y - z) ^ 2 + (z - x) ^ 2) ≤ 0 := by
      by_contra hc
      have := mul_pos (not_le.1 hc) hp2
      linarith
    have a1 : (x - y) ^ 2 = 0 := by linarith
    have a2 : (y - z) ^ 2 = 0 := by linarith
    exact ⟨by linarith [pow_eq_zero_iff (two_ne_zero) |>.1 a1], by linarith [pow_eq_zero_iff (two_ne_zero) |>.1 a2]⟩

theorem triArea_nonneg (a b c : V3 ℝ) : 0 ≤ triArea a b c := div_nonneg (len_nonneg _) (by norm_num)

theorem triArea_sq (a b c : V3 ℝ) : 16 * triArea a b c ^ 2 =
    2 * ((c.sub b).sq * (a.sub c).sq + (a.sub c).sq * (b.sub a).sq + (b.sub a).sq * (c.sub b).sq) -
      ((c.sub b).sq ^ 2 + (a.sub c).sq ^ 2 + (b.sub a).sq ^ 2) := by
  unfold triArea
  rw [div_pow, len_sq]
  simp only [V3.cross, V3.sub, V3.sq, V3.dot]; ring

theorem edge3 (a b c : V3 ℝ) : edgeLens 3 [a, b, c] = [(c.sub b).len, (a.sub c).len, (b.sub a).len] := rfl

/-- **C135**: `smooth_grad_error_indicator` of a triangle is at least 0 and at most 1. If the edges are not negligible (constant
`1e-300` of the code) then it is 1 exactly if the edges have the same length. -/
theorem triSmooth_range (a b c : V3 ℝ) : 0 ≤ triSmooth [a, b, c] ∧ triSmooth [a, b, c] ≤ 1 ∧
    (tiny ≤ (edgeLens 3 [a, b, c]).prod ^ (2 / 3 : ℝ) →
      (triSmooth [a, b, c] = 1 ↔ (c.sub b).len = (a.sub c).len ∧ (a.sub c).len = (b.sub a).len)) := by
  set x := (c.sub b).sq with hx
  set y := (a.sub c).sq with hy
  set z := (b.sub a).sq with hz
  have x0 : 0 ≤ x := sq_nonneg3 _
  have y0 : 0 ≤ y := sq_nonneg3 _
  have z0 : 0 ≤ z := sq_nonneg3 _
  set A := triArea a b c with hA
  have A0 : 0 ≤ A := triArea_nonneg a b c
  set P := (edgeLens 3 [a, b, c]).prod ^ (2 / 3 : ℝ) with hP
  have pn : 0 ≤ (edgeLens 3 [a, b, c]).prod := by
    rw [edge3]
    simp only [List.prod_cons, List.prod_nil, mul_one]
    exact mul_nonneg (len_nonneg _) (mul_nonneg (len_nonneg _) (len_nonneg _))
  have P0 : 0 ≤ P := Real.rpow_nonneg pn _
  have P3 : P ^ 3 = x * y * z := by
    rw [hP, ← Real.rpow_natCast, ← Real.rpow_mul pn]
    have : (2 / 3 : ℝ) * ((3 : ℕ) : ℝ) = ((2 : ℕ) : ℝ) := by norm_num
    rw [this, Real.rpow_natCast, edge3]
    simp only [List.prod_cons, List.prod_nil, mul_one]
    rw [mul_pow, mul_pow, len_sq, len_sq, len_sq]; ring
  have hq : triSmooth [a, b, c] = 4 / √3 * A / max tiny P := by
    have : triSmooth [a, b, c] = 4 / √3 * |A| / max tiny P := rfl
    rw [this, abs_of_nonneg A0]
  have h3 : (0 : ℝ) < √3 := Real.sqrt_pos.2 (by norm_num)
  set Q := 4 / √3 * A with hQ
  have Q0 : 0 ≤ Q := mul_nonneg (by positivity) A0
  have hQ2 : 3 * Q ^ 2 = 16 * A ^ 2 := by
    rw [hQ, mul_pow, div_pow, Real.sq_sqrt (by norm_num)]; ring
  have hH : 16 * A ^ 2 = 2 * (x * y + y * z + z * x) - (x ^ 2 + y ^ 2 + z ^ 2) := triArea_sq a b c
  obtain ⟨b1, b2⟩ := tri_area_bound x0 y0 z0 (by positivity) hH
  have hpow : (16 * A ^ 2) ^ 3 = 27 * Q ^ 6 := by rw [← hQ2]; ring
  have hpow2 : 27 * (x * y * z) ^ 2 = 27 * P ^ 6 := by rw [← P3]; ring
  have hQP : Q ≤ P := by
    rw [hpow, hpow2] at b1
    have : Q ^ 6 ≤ P ^ 6 := by linarith
    exact (pow_le_pow_iff_left₀ Q0 P0 (by norm_num)).1 this
  have ht := tiny_pos
  have hm : 0 < max tiny P := lt_of_lt_of_le ht (le_max_left _ _)
  refine ⟨?_, ?_, ?_⟩
  · rw [hq]; positivity
  · rw [hq, div_le_one hm]; exact le_trans hQP (le_max_right _ _)
  · intro hPt
    have hPp : 0 < P := lt_of_lt_of_le ht hPt
    rw [hq, max_eq_right hPt, div_eq_one_iff_eq hPp.ne']
    constructor
    · intro he
      have hAp : 0 < 16 * A ^ 2 := by rw [← hQ2, he]; positivity
      obtain ⟨e1, e2⟩ := b2 hAp (by rw [hpow, hpow2, he])
      exact ⟨congrArg Real.sqrt e1, congrArg Real.sqrt e2⟩
    · rintro ⟨e1, e2⟩
      have f1 : x = y := by rw [hx, hy, ← len_sq, ← len_sq, e1]
      have f2 : y = z := by rw [hy, hz, ← len_sq, ← len_sq, e2]
      have : (16 * A ^ 2) ^ 3 = 27 * (x * y * z) ^ 2 := by rw [hH, f1, f2]; ring
      rw [hpow, hpow2] at this
      have : Q ^ 6 = P ^ 6 := by linarith
      exact (pow_left_inj₀ Q0 P0 (by norm_num)).1 this

/-- **C137** for triangles: `flat_indicator` is the least altitude by the longest edge. An altitude is the area of the
parallelogram by the length of the side. -/
theorem flatTri_eq {a b c : V3 ℝ} (hE : tiny ≤ listMax (edgeLens 3 [a, b, c])) :
    ∃ h e, flatTri [a, b, c] = h / e ∧ e ∈ edgeLens 3 [a, b, c] ∧ (∀ l ∈ edgeLens 3 [a, b, c], l ≤ e) ∧
      (∀ t ∈ [(a, b, c), (b, c, a), (c, a, b)], (t.2.2.sub t.2.1).sq ≠ 0 →
        h ≤ ((t.1.sub t.2.1).cross (t.2.2.sub t.2.1)).len / (t.2.2.sub t.2.1).len) ∧
      (∃ t ∈ [(a, b, c), (b, c, a), (c, a, b)], h = ((t.1.sub t.2.1).cross (t.2.2.sub t.2.1)).len / (t.2.2.sub t.2.1).len) := by
  have ht := tiny_pos
  set e := listMax (edgeLens 3 [a, b, c]) with he
  have e0 : 0 < e := lt_of_lt_of_le ht hE
  have A0 := triArea_nonneg a b c
  have hA : ∀ t ∈ [(a, b, c), (b, c, a), (c, a, b)], ((t.1.sub t.2.1).cross (t.2.2.sub t.2.1)).len = 2 * triArea a b c := by
    intro t h
    have : ∀ p q : V3 ℝ, p.sq = q.sq → p.len = 2 * (q.len / 2) := by
      intro p q h
      unfold V3.len; rw [h]; ring
    simp only [List.mem_cons, List.not_mem_nil, or_false] at h
    rcases h with rfl | rfl | rfl <;> (apply this; simp only [V3.cross, V3.sub, V3.sq, V3.dot]; try ring)
  have hsw : ∀ p q : V3 ℝ, (p.sub q).len = (q.sub p).len := by
    intro p q; unfold V3.len; congr 1; simp only [V3.sub, V3.sq, V3.dot]; ring
  have hmem : ∀ t ∈ [(a, b, c), (b, c, a), (c, a, b)], (t.2.2.sub t.2.1).len ∈ edgeLens 3 [a, b, c] := by
    intro t h
    rw [edge3]
    simp only [List.mem_cons, List.not_mem_nil, or_false] at h
    rcases h with rfl | rfl | rfl <;> simp
  refine ⟨2 * triArea a b c / e, e, ?_, listMax_mem e0, fun l hl => le_listMax hl, ?_, ?_⟩
  · have : flatTri [a, b, c] = 2 * |triArea a b c| / max tiny e / max tiny e := rfl
    rw [this, abs_of_nonneg A0, max_eq_right hE]
  · intro t h hne
    rw [hA t h]
    have hp : 0 < (t.2.2.sub t.2.1).len := Real.sqrt_pos.2 (lt_of_le_of_ne (sq_nonneg3 _) (Ne.symm hne))
    exact div_le_div_of_nonneg_left (by linarith) hp (le_listMax (hmem t h))
  · have hm := listMax_mem e0
    rw [← he, edge3] at hm
    simp only [List.mem_cons, List.not_mem_nil, or_false] at hm
    rcases hm with h | h | h
    · exact ⟨(a, b, c), by simp, by rw [hA _ (by simp), h]⟩
    · exact ⟨(b, c, a), by simp, by rw [hA _ (by simp), h]⟩
    · exact ⟨(c, a, b), by simp, by rw [hA _ (by simp), h]⟩

/-- **C137** for tetrahedra: `flat_indicator` is *twice* the least altitude by the longest edge, not the ratio of its
documentation. An altitude is the distance of a node to the plane of the other three, by their normal. -/
theorem flatTet_eq {a b c d : V3 ℝ} (hV : tetVol [a, b, c, d] ≠ 0) (hF : tiny ≤ listMax (faceAreas [a, b, c, d]))
    (hE : tiny ≤ listMax (edgeLens 4 [a, b, c, d])) :
    ∃ h e, flatTet [a, b, c, d] = 2 * h / e ∧ 0 < h ∧ e ∈ edgeLens 4 [a, b, c, d] ∧
      (∀ l ∈ edgeLens 4 [a, b, c, d], l ≤ e) ∧
      (∀ t ∈ [(a, b, c, d), (b, a, c, d), (c, a, b, d), (d, a, b, c)], ∀ n, n = (t.2.2.1.sub t.2.1).cross (t.2.2.2.sub t.2.1) →
        h ≤ |(t.1.sub t.2.1).dot n| / n.len) ∧
      (∃ t ∈ [(a, b, c, d), (b, a, c, d), (c, a, b, d), (d, a, b, c)], ∀ n,
        n = (t.2.2.1.sub t.2.1).cross (t.2.2.2.sub t.2.1) → h = |(t.1.sub t.2.1).dot n| / n.len) := by
  have ht := tiny_pos
  set e := listMax (edgeLens 4 [a, b, c, d]) with he
  set f := listMax (faceAreas [a, b, c, d]) with hf
  have e0 : 0 < e := lt_of_lt_of_le ht hE
  have f0 : 0 < f := lt_of_lt_of_le ht hF
  set V := |tetVol [a, b, c, d]| with hVd
  have V0 : 0 < V := abs_pos.2 hV
  have hdet : ∀ t ∈ [(a, b, c, d), (b, a, c, d), (c, a, b, d), (d, a, b, c)],
      |(t.1.sub t.2.1).dot ((t.2.2.1.sub t.2.1).cross (t.2.2.2.sub t.2.1))| = 6 * V := by
    have hs : ∀ y : ℝ, y = 6 * tetVol [a, b, c, d] ∨ y = -(6 * tetVol [a, b, c, d]) → |y| = 6 * V := by
      intro y h
      rcases h with rfl | rfl
      · rw [abs_mul, hVd]; norm_num
      · rw [abs_neg, abs_mul, hVd]; norm_num
    have hv : tetVol [a, b, c, d] = (b.sub a).dot ((c.sub a).cross (d.sub a)) / 6 := rfl
    intro t h
    apply hs
    rw [hv]
    simp only [List.mem_cons, List.not_mem_nil, or_false] at h
    rcases h with rfl | rfl | rfl | rfl
    · right; simp only [V3.cross, V3.sub, V3.dot]; ring
    · left; simp only [V3.cross, V3.sub, V3.dot]; ring
    · right; simp only [V3.cross, V3.sub, V3.dot]; ring
    · left; simp only [V3.cross, V3.sub, V3.dot]; ring
  have hfa : faceAreas [a, b, c, d] = [triArea a b c, triArea a d b, triArea a c d, triArea b d c] := rfl
  have hlen : ∀ p q : V3 ℝ, p.sq = q.sq → p.len = 2 * (q.len / 2) := by
    intro p q h
    unfold V3.len; rw [h]; ring
  have n0 : ((b.sub a).cross (c.sub a)).len = 2 * triArea a b c := by
    apply hlen; simp only [V3.cross, V3.sub, V3.sq, V3.dot]; try ring
  have n1 : ((b.sub a).cross (d.sub a)).len = 2 * triArea a d b := by
    apply hlen; simp only [V3.cross, V3.sub, V3.sq, V3.dot]; try ring
  have n2 : ((c.sub a).cross (d.sub a)).len = 2 * triArea a c d := by
    apply hlen; simp only [V3.cross, V3.sub, V3.sq, V3.dot]; try ring
  have n3 : ((c.sub b).cross (d.sub b)).len = 2 * triArea b d c := by
    apply hlen; simp only [V3.cross, V3.sub, V3.sq, V3.dot]; try ring
  have hn : ∀ t ∈ [(a, b, c, d), (b, a, c, d), (c, a, b, d), (d, a, b, c)],
      ∃ A ∈ faceAreas [a, b, c, d], ((t.2.2.1.sub t.2.1).cross (t.2.2.2.sub t.2.1)).len = 2 * A := by
    intro t h
    rw [hfa]
    simp only [List.mem_cons, List.not_mem_nil, or_false] at h
    rcases h with rfl | rfl | rfl | rfl
    · exact ⟨_, by simp, n3⟩
    · exact ⟨_, by simp, n2⟩
    · exact ⟨_, by simp, n1⟩
    · exact ⟨_, by simp, n0⟩
  have hm := listMax_mem f0
  refine ⟨3 * V / f, e, ?_, by positivity, listMax_mem e0, fun l hl => le_listMax hl, ?_, ?_⟩
  · have : flatTet [a, b, c, d] = 6 * V / max tiny f / max tiny e := rfl
    rw [this, max_eq_right hE, max_eq_right hF]; ring
  · rintro t h n rfl
    obtain ⟨A, hA, hl⟩ := hn t h
    have hd := hdet t h
    rw [hd, hl]
    have hA0 : 0 < A := by
      rcases (len_nonneg ((t.2.2.1.sub t.2.1).cross (t.2.2.2.sub t.2.1))).eq_or_lt with h0 | h0
      · exfalso
        obtain ⟨x0, y0, z0⟩ := len_zero h0.symm
        have : (t.1.sub t.2.1).dot ((t.2.2.1.sub t.2.1).cross (t.2.2.2.sub t.2.1)) = 0 := by
          rw [V3.dot, x0, y0, z0]; ring
        rw [this, abs_zero] at hd
        linarith
      · rw [hl] at h0; linarith
    rw [show 6 * V / (2 * A) = 3 * V / A by field_simp; norm_num]
    exact div_le_div_of_nonneg_left (by positivity) hA0 (le_listMax hA)
  · rw [← hf, hfa] at hm
    simp only [List.mem_cons, List.not_mem_nil, or_false] at hm
    have fin : 6 * V / (2 * f) = 3 * V / f := by field_simp; norm_num
    rcases hm with h | h | h | h
    · refine ⟨(d, a, b, c), by simp, ?_⟩
      rintro n rfl
      rw [hdet _ (by simp)]
      show _ = 6 * V / ((b.sub a).cross (c.sub a)).len
      rw [n0, ← h, fin]
    · refine ⟨(c, a, b, d), by simp, ?_⟩
      rintro n rfl
      rw [hdet _ (by simp)]
      show _ = 6 * V / ((b.sub a).cross (d.sub a)).len
      rw [n1, ← h, fin]
    · refine ⟨(b, a, c, d), by simp, ?_⟩
      rintro n rfl
      rw [hdet _ (by simp)]
      show _ = 6 * V / ((c.sub a).cross (d.sub a)).len
      rw [n2, ← h, fin]
    · refine ⟨(a, b, c, d), by simp, ?_⟩
      rintro n rfl
      rw [hdet _ (by simp)]
      show _ = 6 * V / ((c.sub b).cross (d.sub b)).len
      rw [n3, ← h, fin]

/-- The measures of the corner of a cube, as an instance of the theorem. -/
example : ∃ h, flatTet [⟨0, 0, 0⟩, ⟨1, 0, 0⟩, ⟨0, 1, 0⟩, ⟨0, 0, 1⟩] = 2 * h / √2 ∧ 0 < h := by
  have l1 : (⟨1, 0, 0⟩ : V3 ℝ).len = 1 := by simp [V3.len, V3.sq, V3.dot]
  have s2 : ∀ v : V3 ℝ, v.sq = 2 → v.len = √2 := by intro v h; rw [V3.len, h]
  have hE : edgeLens 4 [⟨0, 0, 0⟩, ⟨1, 0, 0⟩, ⟨0, 1, 0⟩, ⟨0, 0, 1⟩] = [1, 1, 1, √2, √2, √2] := by
    rw [edgeLens_eq]
    simp only [V3.len, V3.sq, V3.dot, V3.sub]
    norm_num
  have t1 : (1 : ℝ) ≤ √2 := by rw [Real.one_le_sqrt]; norm_num
  have ht : tiny ≤ 1 / 2 := by
    unfold tiny
    exact one_div_le_one_div_of_le (by norm_num)
      (le_trans (by norm_num) (le_self_pow₀ (by norm_num : (1 : ℝ) ≤ 10) (by norm_num : (300 : ℕ) ≠ 0)))
  have hE1 : listMax (edgeLens 4 [⟨0, 0, 0⟩, ⟨1, 0, 0⟩, ⟨0, 1, 0⟩, ⟨0, 0, 1⟩]) = √2 := by
    rw [hE]; simp only [listMax, List.foldr_cons, List.foldr_nil]
    rw [max_eq_left (by positivity : (0 : ℝ) ≤ √2), max_self, max_self, max_eq_right t1, max_eq_right t1, max_eq_right t1]
  have hF : (1 / 2 : ℝ) ∈ faceAreas [⟨0, 0, 0⟩, ⟨1, 0, 0⟩, ⟨0, 1, 0⟩, ⟨0, 0, 1⟩] := by
    show _ ∈ [triArea _ _ _, _, _, _]
    have : triArea ⟨0, 0, 0⟩ ⟨1, 0, 0⟩ ⟨0, 1, 0⟩ = 1 / 2 := by
      simp [triArea, V3.len, V3.sq, V3.dot, V3.cross, V3.sub]
    exact List.mem_cons.2 (Or.inl this.symm)
  obtain ⟨h, e, h1, h2, h3, h4, -⟩ := flatTet_eq (a := ⟨0, 0, 0⟩) (b := ⟨1, 0, 0⟩) (c := ⟨0, 1, 0⟩) (d := ⟨0, 0, 1⟩)
    (by simp [tetVol, at3, V3.sub, V3.dot, V3.cross]) (le_trans ht (le_listMax hF)) (by rw [hE1]; linarith)
  have : e = √2 := by
    apply le_antisymm
    · rw [← hE1]; exact le_listMax h3
    · apply h4; rw [hE]; simp
  exact ⟨h, by rw [h1, this], h2⟩

/-- An equilateral triangle for `triSmooth_range`. -/
example : triSmooth [⟨1, 0, 0⟩, ⟨0, 1, 0⟩, ⟨0, 0, 1⟩] = 1 := by
  have hs : ∀ v : V3 ℝ, v.sq = 2 → v.len = √2 := by intro v h; rw [V3.len, h]
  have e1 : ((⟨0, 0, 1⟩ : V3 ℝ).sub ⟨0, 1, 0⟩).len = √2 := hs _ (by simp only [V3.sub, V3.sq, V3.dot]; norm_num)
  have e2 : ((⟨1, 0, 0⟩ : V3 ℝ).sub ⟨0, 0, 1⟩).len = √2 := hs _ (by simp only [V3.sub, V3.sq, V3.dot]; norm_num)
  have e3 : ((⟨0, 1, 0⟩ : V3 ℝ).sub ⟨1, 0, 0⟩).len = √2 := hs _ (by simp only [V3.sub, V3.sq, V3.dot]; norm_num)
  refine ((triSmooth_range _ _ _).2.2 ?_).2 ⟨by rw [e1, e2], by rw [e2, e3]⟩
  rw [edge3, e1, e2, e3]
  have t1 : (1 : ℝ) ≤ √2 := by rw [Real.one_le_sqrt]; norm_num
  have ht : tiny ≤ 1 := by
    unfold tiny
    exact (div_le_one (by positivity)).2 (one_le_pow₀ (by norm_num))
  refine le_trans ht (Real.one_le_rpow ?_ (by norm_num))
  simp only [List.prod_cons, List.prod_nil, mul_one]
  exact one_le_mul_of_one_le_of_one_le t1 (one_le_mul_of_one_le_of_one_le t1 t1)

/-! ### Tetrahedra: the gradient measure -/

/-- The table of the faces at the edges has two entries swapped: the faces with the edge between the nodes 2 and 3 are 2 and 3,
those with the edge between 1 and 2 are 0 and 3. All other entries are right. -/
theorem eFaces_wrong :
    ((List.range 6).filter fun k =>
      (List.range 4).filter (fun f => (faces.getD f []).contains ((edges 4).getD k (0, 0)).1 &&
        (faces.getD f []).contains ((edges 4).getD k (0, 0)).2) != [(eFaces.getD k (0, 0)).1, (eFaces.getD k (0, 0)).2]) =
      [3, 5] := by decide

theorem len_of {v : V3 ℝ} {r : ℝ} (hr : 0 ≤ r) (h : v.sq = r ^ 2) : v.len = r := by
  rw [V3.len, h, Real.sqrt_sq hr]

theorem vol4 (a b c d : V3 ℝ) : tetVol [a, b, c, d] = (b.sub a).dot ((c.sub a).cross (d.sub a)) / 6 := rfl

theorem areas4 (a b c d : V3 ℝ) : (faceAreas [a, b, c, d]).sum =
    triArea a b c + (triArea a d b + (triArea a c d + (triArea b d c + 0))) := rfl

theorem area_of {a b c : V3 ℝ} {r : ℝ} (hr : 0 ≤ r) (h : ((c.sub a).cross (b.sub a)).sq = (2 * r) ^ 2) : triArea a b c = r := by
  unfold triArea
  rw [len_of (by positivity) h]; ring

/-- The sum of the four areas and the sum over the edges. -/
theorem sumPairs_eq (a b c d : V3 ℝ) : sumPairs [a, b, c, d] =
    triArea a b c * triArea a d b * (b.sub a).sq + triArea a b c * triArea a c d * (c.sub a).sq +
    triArea a d b * triArea a c d * (d.sub a).sq + triArea a b c * triArea b d c * (d.sub c).sq +
    triArea a d b * triArea b d c * (d.sub b).sq + triArea a c d * triArea b d c * (c.sub b).sq := by
  have : sumPairs [a, b, c, d] =
    triArea a b c * triArea a d b * (b.sub a).len ^ 2 + (triArea a b c * triArea a c d * (c.sub a).len ^ 2 +
    (triArea a d b * triArea a c d * (d.sub a).len ^ 2 + (triArea a b c * triArea b d c * (d.sub c).len ^ 2 +
    (triArea a d b * triArea b d c * (d.sub b).len ^ 2 + (triArea a c d * triArea b d c * (c.sub b).len ^ 2 + 0))))) := rfl
  rw [this]
  simp only [len_sq]
  ring

/-- **C136**: the measure depends on the order of the nodes. Exchange of two nodes of a corner with sides 1, 1, 2 changes it. -/
theorem tetSmooth_order : tetSmooth [⟨0, 0, 0⟩, ⟨1, 0, 0⟩, ⟨0, 0, 2⟩, ⟨0, 1, 0⟩] < tetSmooth [⟨0, 0, 0⟩, ⟨1, 0, 0⟩, ⟨0, 1, 0⟩, ⟨0, 0, 2⟩] := by
  have v1 : tetVol (K := ℝ) [⟨0, 0, 0⟩, ⟨1, 0, 0⟩, ⟨0, 0, 2⟩, ⟨0, 1, 0⟩] = -(1 / 3) := by
    simp [tetVol, at3, V3.sub, V3.dot, V3.cross]; norm_num
  have v2 : tetVol (K := ℝ) [⟨0, 0, 0⟩, ⟨1, 0, 0⟩, ⟨0, 1, 0⟩, ⟨0, 0, 2⟩] = 1 / 3 := by
    simp [tetVol, at3, V3.sub, V3.dot, V3.cross]; norm_num
  have xy : triArea ⟨0, 0, 0⟩ ⟨1, 0, 0⟩ ⟨0, 1, 0⟩ = 1 / 2 :=
    area_of (by norm_num) (by simp only [V3.cross, V3.sub, V3.sq, V3.dot]; norm_num)
  have yx : triArea ⟨0, 0, 0⟩ ⟨0, 1, 0⟩ ⟨1, 0, 0⟩ = 1 / 2 :=
    area_of (by norm_num) (by simp only [V3.cross, V3.sub, V3.sq, V3.dot]; norm_num)
  have xz : triArea ⟨0, 0, 0⟩ ⟨1, 0, 0⟩ ⟨0, 0, 2⟩ = 1 :=
    area_of (by norm_num) (by simp only [V3.cross, V3.sub, V3.sq, V3.dot]; norm_num)
  have zx : triArea ⟨0, 0, 0⟩ ⟨0, 0, 2⟩ ⟨1, 0, 0⟩ = 1 :=
    area_of (by norm_num) (by simp only [V3.cross, V3.sub, V3.sq, V3.dot]; norm_num)
  have yz : triArea ⟨0, 0, 0⟩ ⟨0, 1, 0⟩ ⟨0, 0, 2⟩ = 1 :=
    area_of (by norm_num) (by simp only [V3.cross, V3.sub, V3.sq, V3.dot]; norm_num)
  have zy : triArea ⟨0, 0, 0⟩ ⟨0, 0, 2⟩ ⟨0, 1, 0⟩ = 1 :=
    area_of (by norm_num) (by simp only [V3.cross, V3.sub, V3.sq, V3.dot]; norm_num)
  have xyz : triArea ⟨1, 0, 0⟩ ⟨0, 1, 0⟩ ⟨0, 0, 2⟩ = 3 / 2 :=
    area_of (by norm_num) (by simp only [V3.cross, V3.sub, V3.sq, V3.dot]; norm_num)
  have xzy : triArea ⟨1, 0, 0⟩ ⟨0, 0, 2⟩ ⟨0, 1, 0⟩ = 3 / 2 :=
    area_of (by norm_num) (by simp only [V3.cross, V3.sub, V3.sq, V3.dot]; norm_num)
  have p1 : sumPairs [⟨0, 0, 0⟩, ⟨1, 0, 0⟩, ⟨0, 0, 2⟩, ⟨0, 1, 0⟩] = 43 / 2 := by
    rw [sumPairs_eq, xz, yx, zy, xyz]
    simp only [V3.sub, V3.sq, V3.dot]; norm_num
  have p2 : sumPairs [⟨0, 0, 0⟩, ⟨1, 0, 0⟩, ⟨0, 1, 0⟩, ⟨0, 0, 2⟩] = 77 / 4 := by
    rw [sumPairs_eq, xy, zx, yz, xzy]
    simp only [V3.sub, V3.sq, V3.dot]; norm_num
  have f1 : (faceAreas [⟨0, 0, 0⟩, ⟨1, 0, 0⟩, ⟨0, 0, 2⟩, ⟨0, 1, 0⟩]).sum = 4 := by
    rw [areas4, xz, yx, zy, xyz]; norm_num
  have f2 : (faceAreas [⟨0, 0, 0⟩, ⟨1, 0, 0⟩, ⟨0, 1, 0⟩, ⟨0, 0, 2⟩]).sum = 4 := by
    rw [areas4, xy, zx, yz, xzy]; norm_num
  have ht : tiny ≤ 1 := by
    unfold tiny
    exact (div_le_one (by positivity)).2 (one_le_pow₀ (by norm_num))
  unfold tetSmooth
  rw [v1, v2, p1, p2, f1, f2, max_eq_right (by linarith), max_eq_right (by linarith), abs_neg]
  have : (4 / (43 / 2) : ℝ) ^ (3 / 4 : ℝ) < (4 / (77 / 4) : ℝ) ^ (3 / 4 : ℝ) :=
    Real.rpow_lt_rpow (by norm_num) (by norm_num) (by norm_num)
  have h3 : (0 : ℝ) < 2 * √(2 / 3) / 9 := by
    have : (0 : ℝ) < √(2 / 3) := Real.sqrt_pos.2 (by norm_num)
    positivity
  have h4 : (0 : ℝ) < |1 / 3| := by norm_num
  exact div_lt_div_of_pos_right (mul_lt_mul_of_pos_left this h4) h3

/-- **C136**: the measure of a regular tetrahedron is less than 0.9, not 1. -/
theorem tetSmooth_regular : (∀ l ∈ edgeLens 4 [⟨1, 1, 1⟩, ⟨1, -1, -1⟩, ⟨-1, 1, -1⟩, ⟨-1, -1, 1⟩], l = √8) ∧
    tetSmooth [⟨1, 1, 1⟩, ⟨1, -1, -1⟩, ⟨-1, 1, -1⟩, ⟨-1, -1, 1⟩] < 9 / 10 := by
  constructor
  · rw [edgeLens_eq]
    intro l hl
    simp only [List.mem_cons, List.not_mem_nil, or_false] at hl
    rcases hl with rfl | rfl | rfl | rfl | rfl | rfl <;>
      (unfold V3.len; congr 1; simp only [V3.sub, V3.sq, V3.dot]; norm_num)
  have v : tetVol (K := ℝ) [⟨1, 1, 1⟩, ⟨1, -1, -1⟩, ⟨-1, 1, -1⟩, ⟨-1, -1, 1⟩] = -(8 / 3) := by
    rw [vol4]
    simp only [V3.sub, V3.dot, V3.cross]; norm_num
  set s := √48 with hs
  have s0 : 0 < s := Real.sqrt_pos.2 (by norm_num)
  have s2 : s ^ 2 = 48 := Real.sq_sqrt (by norm_num)
  have s3 : s < 693 / 100 := by
    rw [hs, Real.sqrt_lt' (by norm_num)]; norm_num
  have ar : ∀ a b c : V3 ℝ, ((c.sub a).cross (b.sub a)).sq = 48 → triArea a b c = s / 2 := by
    intro a b c h
    apply area_of (by positivity)
    rw [h, ← s2]; ring
  have a0 : triArea ⟨1, 1, 1⟩ ⟨1, -1, -1⟩ ⟨-1, 1, -1⟩ = s / 2 := ar _ _ _ (by simp only [V3.cross, V3.sub, V3.sq, V3.dot]; norm_num)
  have a1 : triArea ⟨1, 1, 1⟩ ⟨-1, -1, 1⟩ ⟨1, -1, -1⟩ = s / 2 := ar _ _ _ (by simp only [V3.cross, V3.sub, V3.sq, V3.dot]; norm_num)
  have a2 : triArea ⟨1, 1, 1⟩ ⟨-1, 1, -1⟩ ⟨-1, -1, 1⟩ = s / 2 := ar _ _ _ (by simp only [V3.cross, V3.sub, V3.sq, V3.dot]; norm_num)
  have a3 : triArea ⟨1, -1, -1⟩ ⟨-1, -1, 1⟩ ⟨-1, 1, -1⟩ = s / 2 := ar _ _ _ (by simp only [V3.cross, V3.sub, V3.sq, V3.dot]; norm_num)
  have p : sumPairs [⟨1, 1, 1⟩, ⟨1, -1, -1⟩, ⟨-1, 1, -1⟩, ⟨-1, -1, 1⟩] = 576 := by
    rw [sumPairs_eq, a0, a1, a2, a3]
    have : s / 2 * (s / 2) = 12 := by linear_combination s2 / 4
    rw [this]
    simp only [V3.sub, V3.sq, V3.dot]; norm_num
  have f : (faceAreas [⟨1, 1, 1⟩, ⟨1, -1, -1⟩, ⟨-1, 1, -1⟩, ⟨-1, -1, 1⟩]).sum = 2 * s := by
    rw [areas4, a0, a1, a2, a3]; ring
  have ht : tiny ≤ 1 := by
    unfold tiny
    exact (div_le_one (by positivity)).2 (one_le_pow₀ (by norm_num))
  have hreg : (0 : ℝ) < 2 * √(2 / 3) / 9 := by
    have : (0 : ℝ) < √(2 / 3) := Real.sqrt_pos.2 (by norm_num)
    positivity
  unfold tetSmooth
  rw [v, p, f, max_eq_right (by linarith), abs_neg, abs_of_pos (by norm_num), div_lt_iff₀ hreg]
  apply lt_of_pow_lt_pow_left₀ 4 (by positivity)
  have q1 : ((2 * s / 576) ^ (3 / 4 : ℝ)) ^ 4 = (2 * s / 576) ^ 3 := by
    rw [← Real.rpow_natCast, ← Real.rpow_mul (by positivity), ← Real.rpow_natCast]
    norm_num
  have q2 : (√(2 / 3)) ^ 4 = (4 / 9 : ℝ) := by
    have : (√(2 / 3)) ^ 2 = (2 / 3 : ℝ) := Real.sq_sqrt (by norm_num)
    calc (√(2 / 3)) ^ 4 = ((√(2 / 3)) ^ 2) ^ 2 := by ring
      _ = _ := by rw [this]; norm_num
  rw [mul_pow, q1, mul_pow, div_pow _ 9, mul_pow 2 (√(2 / 3)), q2]
  have q3 : (2 * s / 576) ^ 3 < (2 * (693 / 100) / 576) ^ 3 :=
    pow_lt_pow_left₀ (by linarith) (by positivity) (by norm_num)
  have := mul_lt_mul_of_pos_left q3 (by norm_num : (0 : ℝ) < (8 / 3) ^ 4)
  refine lt_trans this ?_
  norm_num

end Verif.Heal
