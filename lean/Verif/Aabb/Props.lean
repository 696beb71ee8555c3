import Verif.Aabb.Lemmas
import Mathlib.Tactic.NormNum
import Mathlib.Algebra.Order.Ring.Rat
/-! Property theorems about the box lookup (C11 - C14). -/
namespace Verif.Aabb

variable {K : Type} [Field K] [LinearOrder K] [IsStrictOrderedRing K]

/-! ### C11: `intersect_candidates` is exact -/

/-- After any calls, the result lists, in increasing order and without repetition, exactly the ids whose stored box has a
point in common with the query box. The query box is valid and not at infinity, stored boxes are valid. -/
theorem intersect_exact (inf rt2 : K) (n : Nat) (hn : 0 < n) (ops : List (Op K)) (q : Box K) (hq : q.Valid)
    (hq' : q.x1 < inf) (hv : ∀ i b, stored ops i = some b → b.Valid) :
    let r := (run (Lookup.new inf rt2 n) ops).intersect q
    r.Pairwise (· < ·) ∧ ∀ i, i ∈ r ↔ ∃ b, stored ops i = some b ∧ Overlap b q := by
  have h := inv_run ops inf rt2 n hn
  have hc := (run_const ops (Lookup.new inf rt2 n)).1
  intro r
  refine ⟨whereL_sorted _ _, fun i => ?_⟩
  have hov : ∀ b : Box K, b.Valid → (Overlap b q ↔ ¬ (q.x1 < b.x0 ∨ b.x1 < q.x0 ∨ q.y1 < b.y0 ∨ b.y1 < q.y0)) := by
    intro b hb
    obtain ⟨v1, v2⟩ := hb
    obtain ⟨w1, w2⟩ := hq
    constructor
    · rintro ⟨p, ⟨a1, a2, a3, a4⟩, b1, b2, b3, b4⟩ (h | h | h | h) <;> linarith
    · intro hn
      push Not at hn
      obtain ⟨n1, n2, n3, n4⟩ := hn
      refine ⟨⟨max b.x0 q.x0, max b.y0 q.y0⟩, ⟨?_, ?_, ?_, ?_⟩, ?_, ?_, ?_, ?_⟩ <;>
        simp [v1, v2, w1, w2, n1, n2, n3, n4]
  simp only [r, Lookup.intersect, mem_whereL]
  constructor
  · rintro ⟨b, hb, hcond⟩
    rw [List.getElem?_take] at hb
    split at hb
    · rename_i hlt
      simp only [Bool.not_eq_true', Bool.or_eq_false_iff, decide_eq_false_iff_not, not_lt] at hcond
      obtain ⟨⟨c1, c2⟩, c3, c4⟩ := hcond
      cases hm : stored ops i with
      | none =>
        have := h.dead i hm b hb
        subst this
        rw [hc] at c1
        simp only [infRow, Lookup.new] at c1
        exact absurd hq' (not_lt.2 c1)
      | some c =>
        have := (h.live i c hm).1
        rw [hb] at this
        cases this
        refine ⟨b, rfl, (hov b (hv i b hm)).2 ?_⟩
        push Not
        exact ⟨c1, c2, c3, c4⟩
    · simp at hb
  · rintro ⟨b, hb, ho⟩
    obtain ⟨a1, a2⟩ := h.live i b hb
    refine ⟨b, by rw [List.getElem?_take, if_pos a2, a1], ?_⟩
    have := (hov b (hv i b hb)).1 ho
    push Not at this
    simp only [Bool.not_eq_true', Bool.or_eq_false_iff, decide_eq_false_iff_not, not_lt]
    exact ⟨⟨this.1, this.2.1⟩, this.2.2.1, this.2.2.2⟩

/-! ### C12: `closest_candidates` does not miss the nearest objects -/

theorem sq_bound {a t : K} (h1 : a ≤ t) (h2 : -a ≤ t) : a * a ≤ t * t := by nlinarith

theorem lt_of_sq {a r : K} (hr : 0 ≤ r) (h : a * a < r * r) : a < r := by
  by_contra hh
  have := not_lt.1 hh
  nlinarith

theorem two_sq {rt2 t : K} (h2 : 2 ≤ rt2 * rt2) : t * t + t * t ≤ (rt2 * t) * (rt2 * t) := by
  have := mul_le_mul_of_nonneg_right h2 (mul_self_nonneg t)
  have e : (rt2 * t) * (rt2 * t) = rt2 * rt2 * (t * t) := by ring
  linarith

/-- Objects are point sets inside their boxes with a margin `m > 0` to spare (as `PolygonDecomposition` stores them).
Every object that has a point nearest to `p` is among the candidates. `rt2` is the computed `sqrt(2)`; coordinates are at
most `B` in absolute value and the table's infinity is larger than `3 B`. -/
theorem closest_contains_nearest (inf rt2 B m : K) (n : Nat) (hn : 0 < n) (h0 : 0 < rt2) (h2 : 2 ≤ rt2 * rt2)
    (hB : 3 * B < inf) (ops : List (Op K)) (hv : ∀ i b, stored ops i = some b → b.Within B)
    (p : Pt K) (hp : p.Within B) (obj : Nat → Pt K → Prop) (hm : 0 < m)
    (hne : ∀ i b, stored ops i = some b → ∃ q, obj i q)
    (hin : ∀ i b, stored ops i = some b → ∀ q, obj i q →
      b.x0 + m ≤ q.x ∧ q.x + m ≤ b.x1 ∧ b.y0 + m ≤ q.y ∧ q.y + m ≤ b.y1)
    (i : Nat) (b : Box K) (hi : stored ops i = some b) (q : Pt K) (hq : obj i q)
    (hnear : ∀ j c q', stored ops j = some c → obj j q' → dist2 p q ≤ dist2 p q') :
    ∃ cs, (run (Lookup.new inf rt2 n) ops).closest p = .ok cs ∧ i ∈ cs := by
  have h := inv_run ops inf rt2 n hn
  have hc := run_const ops (Lookup.new inf rt2 n)
  obtain ⟨j, c, l, hj, hl, _, hcl⟩ := closest_eq _ _ h B (by rw [hc.1]; exact hB) hv p hp i b hi
  refine ⟨_, hcl, ?_⟩
  rw [mem_whereL]
  refine ⟨infDist p b, by rw [List.getElem?_map, (h.live i b hi).1]; rfl, ?_⟩
  simp only [decide_eq_true_eq, hc.2]
  change _ < rt2 * l
  obtain ⟨qc, hqc⟩ := hne j c hj
  obtain ⟨c1, c2, c3, c4⟩ := hin j c hj qc hqc
  obtain ⟨m1, m2, m3, m4⟩ := le_maxDist p c
  have hd := hnear j c qc hj hqc
  -- every coordinate difference of qc is at most t
  set t := l - m with ht
  have t1 : p.x - qc.x ≤ t := by linarith
  have t2 : qc.x - p.x ≤ t := by linarith
  have t3 : p.y - qc.y ≤ t := by linarith
  have t4 : qc.y - p.y ≤ t := by linarith
  have tpos : 0 ≤ t := by linarith
  have sx : (p.x - qc.x) * (p.x - qc.x) ≤ t * t := sq_bound t1 (by linarith)
  have sy : (p.y - qc.y) * (p.y - qc.y) ≤ t * t := sq_bound t3 (by linarith)
  have hqq : dist2 p q ≤ (rt2 * t) * (rt2 * t) := by
    have := two_sq (t := t) h2
    unfold dist2 at hd ⊢
    linarith
  have hrt : 0 ≤ rt2 * t := mul_nonneg h0.le tpos
  unfold dist2 at hqq
  have xx := mul_self_nonneg (p.x - q.x)
  have yy := mul_self_nonneg (p.y - q.y)
  have g1 : p.x - q.x ≤ rt2 * t := sq_le hrt (by linarith)
  have g2 : q.x - p.x ≤ rt2 * t := sq_le hrt (by
    have e : (q.x - p.x) * (q.x - p.x) = (p.x - q.x) * (p.x - q.x) := by ring
    linarith)
  have g3 : p.y - q.y ≤ rt2 * t := sq_le hrt (by linarith)
  have g4 : q.y - p.y ≤ rt2 * t := sq_le hrt (by
    have e : (q.y - p.y) * (q.y - p.y) = (p.y - q.y) * (p.y - q.y) := by ring
    linarith)
  have hhas : b.Has q := by
    obtain ⟨e1, e2, e3, e4⟩ := hin i b hi q hq
    exact ⟨by linarith, by linarith, by linarith, by linarith⟩
  have := infDist_le p q b hhas (rt2 * t) g2 g1 g4 g3
  have : rt2 * t < rt2 * l := mul_lt_mul_of_pos_left (by linarith) h0
  linarith

/-- Without a margin: as long as no stored box is a single point, at least one nearest object is among the candidates. -/
theorem closest_contains_a_nearest (inf rt2 B : K) (n : Nat) (hn : 0 < n) (h0 : 0 < rt2) (h2 : 2 ≤ rt2 * rt2)
    (hB : 3 * B < inf) (ops : List (Op K)) (hv : ∀ i b, stored ops i = some b → b.Within B ∧ (b.x0 < b.x1 ∨ b.y0 < b.y1))
    (p : Pt K) (hp : p.Within B) (obj : Nat → Pt K → Prop)
    (hne : ∀ i b, stored ops i = some b → ∃ q, obj i q)
    (hin : ∀ i b, stored ops i = some b → ∀ q, obj i q → b.Has q)
    (i : Nat) (b : Box K) (hi : stored ops i = some b) (q : Pt K) (hq : obj i q)
    (hnear : ∀ j c q', stored ops j = some c → obj j q' → dist2 p q ≤ dist2 p q') :
    ∃ cs, (run (Lookup.new inf rt2 n) ops).closest p = .ok cs ∧
      ∃ k ∈ cs, ∃ c, stored ops k = some c ∧ ∃ q', obj k q' ∧ dist2 p q' = dist2 p q := by
  have h := inv_run ops inf rt2 n hn
  have hc := run_const ops (Lookup.new inf rt2 n)
  obtain ⟨j, c, l, hj, hl, _, hcl⟩ :=
    closest_eq _ _ h B (by rw [hc.1]; exact hB) (fun i b hb => (hv i b hb).1) p hp i b hi
  refine ⟨_, hcl, ?_⟩
  have hmem : ∀ k c, stored ops k = some c → infDist p c < rt2 * l →
      k ∈ whereL ((run (Lookup.new inf rt2 n) ops).rows.map (infDist p))
        (fun x => decide (x < (run (Lookup.new inf rt2 n) ops).rt2 * l)) := by
    intro k c hk hlt
    rw [mem_whereL]
    refine ⟨infDist p c, by rw [List.getElem?_map, (h.live k c hk).1]; rfl, ?_⟩
    simp only [decide_eq_true_eq, hc.2]
    exact hlt
  obtain ⟨m1, m2, m3, m4⟩ := le_maxDist p c
  have lpos : 0 < l := by
    rcases (hv j c hj).2 with hx | hy
    · by_contra hcon; linarith
    · by_contra hcon; linarith
  have r1 : 1 < rt2 := by
    by_contra hcon
    have : rt2 ≤ 1 := not_lt.1 hcon
    have := mul_le_mul this this h0.le zero_le_one
    linarith
  by_cases hlt : infDist p b < rt2 * l
  · exact ⟨i, hmem i b hi hlt, b, hi, q, hq, rfl⟩
  · obtain ⟨qc, hqc⟩ := hne j c hj
    obtain ⟨c1, c2, c3, c4⟩ := hin j c hj qc hqc
    have t1 : p.x - qc.x ≤ l := by linarith
    have t2 : qc.x - p.x ≤ l := by linarith
    have t3 : p.y - qc.y ≤ l := by linarith
    have t4 : qc.y - p.y ≤ l := by linarith
    have hjm : infDist p c < rt2 * l := by
      have := infDist_le p qc c (hin j c hj qc hqc) l t2 t1 t4 t3
      have : l < rt2 * l := lt_mul_of_one_lt_left lpos r1
      linarith
    refine ⟨j, hmem j c hj hjm, c, hj, qc, hqc, ?_⟩
    have hd := hnear j c qc hj hqc
    apply le_antisymm _ hd
    -- dist2 p qc ≤ 2 l² ≤ (rt2 l)² ≤ dist2 p q
    have sx : (p.x - qc.x) * (p.x - qc.x) ≤ l * l := sq_bound t1 (by linarith)
    have sy : (p.y - qc.y) * (p.y - qc.y) ≤ l * l := sq_bound t3 (by linarith)
    have s2 := two_sq (t := l) h2
    have hrl : 0 ≤ rt2 * l := mul_nonneg h0.le lpos.le
    have hq2 : (rt2 * l) * (rt2 * l) ≤ dist2 p q := by
      by_contra hcon
      have hcon := not_le.1 hcon
      unfold dist2 at hcon
      have xx := mul_self_nonneg (p.x - q.x)
      have yy := mul_self_nonneg (p.y - q.y)
      have lt_of : ∀ a : K, a * a < (rt2 * l) * (rt2 * l) → a < rt2 * l := fun a => lt_of_sq hrl
      have ex : (q.x - p.x) * (q.x - p.x) = (p.x - q.x) * (p.x - q.x) := by ring
      have ey : (q.y - p.y) * (q.y - p.y) = (p.y - q.y) * (p.y - q.y) := by ring
      have hb := hin i b hi q hq
      have g1 : p.x - q.x < rt2 * l := lt_of _ (by linarith)
      have g2 : q.x - p.x < rt2 * l := lt_of _ (by linarith)
      have g3 : p.y - q.y < rt2 * l := lt_of _ (by linarith)
      have g4 : q.y - p.y < rt2 * l := lt_of _ (by linarith)
      apply hlt
      obtain ⟨e1, e2, e3, e4⟩ := hb
      unfold infDist
      simp only [max_lt_iff]
      exact ⟨⟨by linarith, by linarith⟩, ⟨by linarith, by linarith⟩⟩
    unfold dist2 at hq2 ⊢
    linarith

/-- A stored box that is a single point and the query point at the same time is missed: the result is empty although
the box is stored. -/
theorem closest_misses_point_box :
    ∃ (s : Lookup ℚ), s = run (Lookup.new 1000 (3 / 2) 1) [.add 0 ⟨1, 1, 1, 1⟩] ∧
      stored [Op.add 0 (⟨1, 1, 1, 1⟩ : Box ℚ)] 0 = some ⟨1, 1, 1, 1⟩ ∧ s.closest ⟨1, 1⟩ = .ok [] := by
  refine ⟨_, rfl, rfl, ?_⟩
  have hs : run (Lookup.new (1000 : ℚ) (3 / 2) 1) [.add 0 ⟨1, 1, 1, 1⟩] = ⟨1000, 3 / 2, 1, [⟨1, 1, 1, 1⟩]⟩ := by
    simp [run, step, Lookup.add, Lookup.new, grow]
  rw [hs]
  decide +kernel

/-! ### C13: only stored ids -/

/-- As long as something is stored, every candidate is a stored id. What is missing from the full claim: an emptied table,
see `closest_on_emptied_table`. -/
theorem closest_only_stored_partial (inf rt2 B : K) (n : Nat) (hn : 0 < n) (h0 : 1 ≤ rt2)
    (hB : (2 * rt2 + 1) * B < inf) (ops : List (Op K)) (hv : ∀ i b, stored ops i = some b → b.Within B)
    (p : Pt K) (hp : p.Within B) (i : Nat) (b : Box K) (hi : stored ops i = some b) :
    ∃ cs, (run (Lookup.new inf rt2 n) ops).closest p = .ok cs ∧ ∀ k ∈ cs, stored ops k ≠ none := by
  have h := inv_run ops inf rt2 n hn
  have hc := run_const ops (Lookup.new inf rt2 n)
  have hB0 : 0 ≤ B := by obtain ⟨h1, h2, _⟩ := hp; linarith
  have hB3 : 3 * B < inf := by nlinarith
  obtain ⟨j, c, l, hj, hl, ⟨j', c', hj', hl'⟩, hcl⟩ := closest_eq _ _ h B (by rw [hc.1]; exact hB3) hv p hp i b hi
  refine ⟨_, hcl, fun k hk hnone => ?_⟩
  rw [mem_whereL] at hk
  obtain ⟨x, hx1, hx2⟩ := hk
  rw [List.getElem?_map] at hx1
  simp only [Option.map_eq_some_iff] at hx1
  obtain ⟨d, hd1, hd2⟩ := hx1
  have := h.dead k hnone d hd1
  subst this
  rw [hc.1] at hd2
  have hfar := infDist_infRow p (Lookup.new inf rt2 n).inf B hp
  rw [hd2] at hfar
  simp only [decide_eq_true_eq, hc.2] at hx2
  change x < rt2 * l at hx2
  change inf - B ≤ x at hfar
  have hl2 : l ≤ 2 * B := by rw [hl']; exact maxDist_within p c' B hp (hv _ _ hj')
  have : rt2 * l ≤ rt2 * (2 * B) := mul_le_mul_of_nonneg_left hl2 (by linarith)
  nlinarith

/-- An emptied table: if boxes were added and all removed again, `closest_candidates` returns *every* row number of the
table, at least `0 .. n-1`, although nothing is stored. -/
theorem closest_on_emptied_table (inf rt2 B : K) (n : Nat) (hn : 0 < n) (h0 : 1 < rt2) (hB : B < inf)
    (ops : List (Op K)) (p : Pt K) (hp : p.Within B) (hadd : ∃ i b, Op.add i b ∈ ops)
    (hempty : ∀ i, stored ops i = none) :
    ∃ cs, (run (Lookup.new inf rt2 n) ops).closest p = .ok cs ∧ ∀ i < n, i ∈ cs := by
  have h := inv_run ops inf rt2 n hn
  have hc := run_const ops (Lookup.new inf rt2 n)
  -- the number of boxes and the table never shrink
  have hmono : ∀ (ops : List (Op K)) (s : Lookup K), 0 < s.rows.length → s.nBoxes ≤ s.rows.length →
      s.nBoxes ≤ (run s ops).nBoxes ∧ s.rows.length ≤ (run s ops).rows.length ∧
        ((∃ i b, Op.add i b ∈ ops) → 0 < (run s ops).nBoxes) := by
    intro ops
    induction ops with
    | nil => intro s _ _; exact ⟨le_refl _, le_refl _, by rintro ⟨i, b, h⟩; simp at h⟩
    | cons o os ih =>
      intro s hs hs'
      have hst : 0 < (step s o).rows.length ∧ (step s o).nBoxes ≤ (step s o).rows.length ∧
          s.nBoxes ≤ (step s o).nBoxes ∧ s.rows.length ≤ (step s o).rows.length := by
        cases o with
        | add j b =>
          obtain ⟨g1, g2, _⟩ := grow_spec s.inf j s.rows hs
          simp only [step, Lookup.add, List.length_set]
          omega
        | rm j =>
          simp only [step, Lookup.rm]
          by_cases hj : j < s.rows.length
          · simp only [hj, if_true, List.length_set]; omega
          · simp only [hj, if_false]; omega
      obtain ⟨a1, a2, a3⟩ := ih (step s o) hst.1 hst.2.1
      have e : run s (o :: os) = run (step s o) os := rfl
      rw [e]
      refine ⟨by omega, by omega, ?_⟩
      rintro ⟨i, b, hm⟩
      rcases List.mem_cons.1 hm with rfl | hm
      · have : 0 < (step s (.add i b)).nBoxes := by simp [step, Lookup.add]
        omega
      · exact a3 ⟨i, b, hm⟩
  obtain ⟨_, hlen, hnb⟩ := hmono ops (Lookup.new inf rt2 n) (by simpa [Lookup.new]) (by simp [Lookup.new])
  have hnb := hnb hadd
  have hlen' : n ≤ (run (Lookup.new inf rt2 n) ops).rows.length := by simpa [Lookup.new] using hlen
  generalize run (Lookup.new inf rt2 n) ops = s at *
  have hinf : s.inf = inf := hc.1
  have hrt : s.rt2 = rt2 := hc.2
  have hrow : ∀ b ∈ s.rows, b = infRow inf := by
    intro b hb
    obtain ⟨k, hk⟩ := List.mem_iff_getElem?.1 hb
    rw [h.dead k (hempty k) b hk, hinf]
  have hrows : s.rows = List.replicate s.rows.length (infRow inf) := List.eq_replicate_iff.2 ⟨rfl, hrow⟩
  have hpos := h.pos
  have hnle := h.nle
  generalize hD : infDist p (infRow inf) = D
  have hDD : maxDist p (infRow inf) = D := by
    obtain ⟨p1, p2, p3, p4⟩ := hp
    rw [← hD]
    unfold maxDist infDist infRow
    rw [max_eq_right (by linarith : p.x - inf ≤ inf - p.x), max_eq_right (by linarith : p.y - inf ≤ inf - p.y),
      max_eq_left (by linarith : p.x - inf ≤ inf - p.x), max_eq_left (by linarith : p.y - inf ≤ inf - p.y)]
  have hDpos : 0 < D := by
    have := infDist_infRow p inf B hp
    rw [hD] at this
    linarith
  obtain ⟨N, hN⟩ : ∃ N, s.rows.length = N + 1 := ⟨s.rows.length - 1, by omega⟩
  have hd : s.rows.map (infDist p) = D :: List.replicate N D := by
    rw [hrows, hN, List.map_replicate, hD, List.replicate_succ]
  have hmin : lmin D (List.replicate N D) = D := by
    have := lmin_mem D (List.replicate N D)
    rcases List.mem_cons.1 this with e | e
    · exact e
    · exact (List.mem_replicate.1 e).2
  have htake : (s.rows.take s.nBoxes) = List.replicate s.nBoxes (infRow inf) := by
    rw [hrows]
    simp only [List.take_replicate]
    congr 1
    omega
  refine ⟨whereL (D :: List.replicate N D) (fun x => decide (x < rt2 * D)), ?_, ?_⟩
  · obtain ⟨M, hM⟩ : ∃ M, s.nBoxes = M + 1 := ⟨s.nBoxes - 1, by omega⟩
    simp only [Lookup.closest, htake, List.length_replicate, hd, hmin, hrt]
    rw [if_neg (by omega), hM]
    simp [hDpos, List.findIdx_cons, List.replicate_succ, lmax, hDD]
  · intro i hi
    rw [mem_whereL]
    refine ⟨D, ?_, ?_⟩
    · rw [← List.replicate_succ, List.getElem?_replicate, if_pos (by omega)]
    · simp only [decide_eq_true_eq]
      nlinarith

/-! ### C14: `make_aabb` -/

/-- The result contains every point; with `margin ≤ 0` every box that contains the points contains the result; with
`margin > 0` the result is that smallest box moved outwards by `margin` on each side. No points: an exception. -/
theorem makeAabb_spec (points : List (Pt K)) (margin : K) :
    (points = [] → makeAabb points margin = .error .valueError) ∧
    (points ≠ [] → ∃ t r : Box K, makeAabb points margin = .ok r ∧
      (∀ q ∈ points, t.Has q) ∧
      (∀ c : Box K, (∀ q ∈ points, c.Has q) → c.x0 ≤ t.x0 ∧ c.y0 ≤ t.y0 ∧ t.x1 ≤ c.x1 ∧ t.y1 ≤ c.y1) ∧
      (margin ≤ 0 → r = t) ∧
      (0 < margin → r = ⟨t.x0 - margin, t.y0 - margin, t.x1 + margin, t.y1 + margin⟩) ∧
      (∀ q ∈ points, r.Has q)) := by
  refine ⟨by rintro rfl; rfl, fun hne => ?_⟩
  cases points with
  | nil => exact absurd rfl hne
  | cons p ps =>
    have fmin : ∀ (f : Pt K → K) (ps : List (Pt K)) (a : K),
        ps.foldl (fun m q => min m (f q)) a = lmin a (ps.map f) := by
      intro f ps
      induction ps with
      | nil => intro a; rfl
      | cons q qs ih => intro a; simp only [List.foldl_cons, ih, List.map_cons, lmin]
    have fmax : ∀ (f : Pt K → K) (ps : List (Pt K)) (a : K),
        ps.foldl (fun m q => max m (f q)) a = lmax a (ps.map f) := by
      intro f ps
      induction ps with
      | nil => intro a; rfl
      | cons q qs ih => intro a; simp only [List.foldl_cons, ih, List.map_cons, lmax]
    let t : Box K :=
      ⟨lmin p.x (ps.map Pt.x), lmin p.y (ps.map Pt.y), lmax p.x (ps.map Pt.x), lmax p.y (ps.map Pt.y)⟩
    have hlo : ∀ (f : Pt K → K), ∀ q ∈ p :: ps, lmin (f p) (ps.map f) ≤ f q ∧ f q ≤ lmax (f p) (ps.map f) := by
      intro f q hq
      have : f q ∈ f p :: ps.map f := by
        rw [← List.map_cons]; exact List.mem_map_of_mem hq
      exact ⟨lmin_le _ _ _ this, le_lmax _ _ _ this⟩
    have hmem : ∀ (f : Pt K → K), (∃ q ∈ p :: ps, f q = lmin (f p) (ps.map f)) ∧
        (∃ q ∈ p :: ps, f q = lmax (f p) (ps.map f)) := by
      intro f
      constructor
      · have := lmin_mem (f p) (ps.map f)
        rw [← List.map_cons, List.mem_map] at this
        exact this
      · have := lmax_mem (f p) (ps.map f)
        rw [← List.map_cons, List.mem_map] at this
        exact this
    have ht : ∀ q ∈ p :: ps, t.Has q := fun q hq =>
      ⟨(hlo Pt.x q hq).1, (hlo Pt.x q hq).2, (hlo Pt.y q hq).1, (hlo Pt.y q hq).2⟩
    refine ⟨t, _, rfl, ht, ?_, ?_, ?_, ?_⟩
    · intro c hc
      obtain ⟨⟨q1, h1, e1⟩, ⟨q2, h2, e2⟩⟩ := hmem Pt.x
      obtain ⟨⟨q3, h3, e3⟩, ⟨q4, h4, e4⟩⟩ := hmem Pt.y
      refine ⟨?_, ?_, ?_, ?_⟩
      · change c.x0 ≤ lmin p.x (ps.map Pt.x); rw [← e1]; exact (hc q1 h1).1
      · change c.y0 ≤ lmin p.y (ps.map Pt.y); rw [← e3]; exact (hc q3 h3).2.2.1
      · change lmax p.x (ps.map Pt.x) ≤ c.x1; rw [← e2]; exact (hc q2 h2).2.1
      · change lmax p.y (ps.map Pt.y) ≤ c.y1; rw [← e4]; exact (hc q4 h4).2.2.2
    · intro hm
      rw [if_neg (not_lt.2 hm)]
      simp only [fmin, fmax, t]
    · intro hm
      rw [if_pos hm]
      simp only [fmin, fmax, t, Box.mk.injEq]
      refine ⟨by ring, by ring, by ring, by ring⟩
    · intro q hq
      obtain ⟨a, b, c, d⟩ := ht q hq
      simp only [t] at a b c d
      by_cases hm : margin > 0
      · rw [if_pos hm]
        simp only [fmin, fmax]
        refine ⟨?_, ?_, ?_, ?_⟩ <;> simp only <;> linarith
      · rw [if_neg hm]
        simp only [fmin, fmax]
        exact ⟨a, b, c, d⟩

/-! ### Non-vacuity -/

/-- Two stored boxes, one overwritten, one removed: the hypotheses of `intersect_exact` and `closest_contains_nearest`
(objects = centre points, margin 1) hold. -/
def sampleOps : List (Op ℚ) :=
  [.add 0 ⟨0, 0, 4, 4⟩, .add 5 ⟨9, 9, 9, 9⟩, .add 2 ⟨6, 6, 8, 8⟩, .add 5 ⟨-3, 1, -1, 3⟩, .rm 0]

theorem sample_stored (i : Nat) (b : Box ℚ) :
    stored sampleOps i = some b ↔ (i = 2 ∧ b = ⟨6, 6, 8, 8⟩) ∨ (i = 5 ∧ b = ⟨-3, 1, -1, 3⟩) := by
  simp only [stored, sampleOps, List.foldl_cons, List.foldl_nil, specStep]
  by_cases h0 : i = 0
  · subst h0; simp
  · by_cases h5 : i = 5
    · subst h5; simp [eq_comm]
    · by_cases h2 : i = 2
      · subst h2; simp [eq_comm]
      · simp [h0, h5, h2]

example : (2 : ℚ) ≤ (3 / 2) * (3 / 2) ∧ (3 : ℚ) * 100 < 1000 ∧
    (∀ i b, stored sampleOps i = some b → b.Valid ∧ b.Within 100) ∧
    (∀ i b, stored sampleOps i = some b → ∀ q : Pt ℚ, (q = ⟨(b.x0 + b.x1) / 2, (b.y0 + b.y1) / 2⟩) →
      b.x0 + 1 ≤ q.x ∧ q.x + 1 ≤ b.x1 ∧ b.y0 + 1 ≤ q.y ∧ q.y + 1 ≤ b.y1) := by
  refine ⟨by norm_num, by norm_num, ?_, ?_⟩
  · intro i b h
    rw [sample_stored] at h
    rcases h with ⟨_, rfl⟩ | ⟨_, rfl⟩ <;> simp only [Box.Valid, Box.Within] <;> norm_num
  · intro i b h q hq
    rw [sample_stored] at h
    subst hq
    rcases h with ⟨_, rfl⟩ | ⟨_, rfl⟩ <;> norm_num

/-- hypotheses of `closest_on_emptied_table` -/
example : (∃ i b, Op.add i b ∈ [Op.add 0 (⟨1, 1, 2, 2⟩ : Box ℚ), .rm 0]) ∧
    ∀ i, stored [Op.add 0 (⟨1, 1, 2, 2⟩ : Box ℚ), .rm 0] i = none := by
  refine ⟨⟨0, ⟨1, 1, 2, 2⟩, by simp⟩, fun i => ?_⟩
  simp only [stored, List.foldl_cons, List.foldl_nil, specStep]
  by_cases h : i = 0 <;> simp [h]

end Verif.Aabb
