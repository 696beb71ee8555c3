import Verif.Spline.Basis
/-! Property theorems about `Curve` and `Surface` (C18, C22, C24). -/
namespace Verif.Spline
open Finset

set_option linter.unusedSectionVars false
variable {K : Type} [Field K] [LinearOrder K] [IsStrictOrderedRing K]

/-! ### Averages -/

/-- A weighted mean lies between the bounds of its terms. -/
theorem mean_bounds (n : Nat) (w f : Nat → K) (hw : ∀ j < n, 0 ≤ w j) (hs : ∑ j ∈ range n, w j = 1) (m M : K)
    (hm : ∀ j < n, m ≤ f j) (hM : ∀ j < n, f j ≤ M) :
    m ≤ ∑ j ∈ range n, w j * f j ∧ ∑ j ∈ range n, w j * f j ≤ M := by
  constructor
  · calc m = ∑ j ∈ range n, w j * m := by rw [← sum_mul, hs, one_mul]
      _ ≤ _ := sum_le_sum fun j hj => mul_le_mul_of_nonneg_left (hm j (mem_range.1 hj)) (hw j (mem_range.1 hj))
  · calc _ ≤ ∑ j ∈ range n, w j * M :=
        sum_le_sum fun j hj => mul_le_mul_of_nonneg_left (hM j (mem_range.1 hj)) (hw j (mem_range.1 hj))
      _ = M := by rw [← sum_mul, hs, one_mul]

/-- The same with rational weights. -/
theorem ratio_bounds (n : Nat) (b w f : Nat → K) (hb : ∀ j < n, 0 ≤ b j) (hs : ∑ j ∈ range n, b j = 1)
    (hw : ∀ j < n, 0 < w j) (m M : K) (hm : ∀ j < n, m ≤ f j) (hM : ∀ j < n, f j ≤ M) :
    0 < ∑ j ∈ range n, b j * w j ∧
    m ≤ (∑ j ∈ range n, b j * (f j * w j)) / (∑ j ∈ range n, b j * w j) ∧
    (∑ j ∈ range n, b j * (f j * w j)) / (∑ j ∈ range n, b j * w j) ≤ M := by
  have hpos : 0 < ∑ j ∈ range n, b j * w j := by
    apply sum_pos'
    · intro j hj; exact mul_nonneg (hb j (mem_range.1 hj)) (hw j (mem_range.1 hj)).le
    · by_contra hc
      push Not at hc
      have : ∑ j ∈ range n, b j = 0 := by
        refine sum_eq_zero fun j hj => ?_
        have h := hc j hj
        have h1 := hb j (mem_range.1 hj)
        have h2 := hw j (mem_range.1 hj)
        by_contra hne
        exact absurd (mul_pos (lt_of_le_of_ne h1 (Ne.symm hne)) h2) (not_lt.2 h)
      rw [hs] at this
      exact one_ne_zero this
  refine ⟨hpos, ?_, ?_⟩
  · rw [le_div_iff₀ hpos, mul_sum]
    refine sum_le_sum fun j hj => ?_
    have h := mem_range.1 hj
    have := mul_le_mul_of_nonneg_right (hm j h) (mul_nonneg (hb j h) (hw j h).le)
    calc m * (b j * w j) ≤ f j * (b j * w j) := this
      _ = b j * (f j * w j) := by ring
  · rw [div_le_iff₀ hpos, mul_sum]
    refine sum_le_sum fun j hj => ?_
    have h := mem_range.1 hj
    have := mul_le_mul_of_nonneg_right (hM j h) (mul_nonneg (hb j h) (hw j h).le)
    calc b j * (f j * w j) = f j * (b j * w j) := by ring
      _ ≤ M * (b j * w j) := this

theorem colMin_le (rows : List (List K)) (d : Nat) : ∀ r ∈ rows, colMin rows d ≤ r.getD d 0 := by
  have gen : ∀ (rs : List (List K)) (a : K), rs.foldl (fun m r => min m (r.getD d 0)) a ≤ a ∧
      ∀ r ∈ rs, rs.foldl (fun m r => min m (r.getD d 0)) a ≤ r.getD d 0 := by
    intro rs
    induction rs with
    | nil => intro a; simp
    | cons x xs ih =>
      intro a
      obtain ⟨h1, h2⟩ := ih (min a (x.getD d 0))
      simp only [List.foldl_cons]
      refine ⟨le_trans h1 (min_le_left _ _), ?_⟩
      intro r hr
      rcases List.mem_cons.1 hr with rfl | hr
      · exact le_trans h1 (min_le_right _ _)
      · exact h2 r hr
  intro r hr
  cases rows with
  | nil => simp at hr
  | cons x xs =>
    obtain ⟨h1, h2⟩ := gen xs (x.getD d 0)
    rcases List.mem_cons.1 hr with rfl | hr
    · exact h1
    · exact h2 r hr

theorem le_colMax (rows : List (List K)) (d : Nat) : ∀ r ∈ rows, r.getD d 0 ≤ colMax rows d := by
  have gen : ∀ (rs : List (List K)) (a : K), a ≤ rs.foldl (fun m r => max m (r.getD d 0)) a ∧
      ∀ r ∈ rs, r.getD d 0 ≤ rs.foldl (fun m r => max m (r.getD d 0)) a := by
    intro rs
    induction rs with
    | nil => intro a; simp
    | cons x xs ih =>
      intro a
      obtain ⟨h1, h2⟩ := ih (max a (x.getD d 0))
      simp only [List.foldl_cons]
      refine ⟨le_trans (le_max_left _ _) h1, ?_⟩
      intro r hr
      rcases List.mem_cons.1 hr with rfl | hr
      · exact le_trans (le_max_right _ _) h1
      · exact h2 r hr
  intro r hr
  cases rows with
  | nil => simp at hr
  | cons x xs =>
    obtain ⟨h1, h2⟩ := gen xs (x.getD d 0)
    rcases List.mem_cons.1 hr with rfl | hr
    · exact h1
    · exact h2 r hr

/-! ### Curves -/

/-- What the constructor guarantees. -/
theorem Curve.init_spec {B : Basis K} {poles : List (List K)} {rational : Bool} {C : Curve K}
    (h : Curve.init B poles rational = .ok C) : C = ⟨B, poles, rational⟩ ∧ poles.length = B.size ∧
      ∀ r ∈ poles, r.length = (poles.headD []).length := by
  unfold Curve.init at h
  split at h
  · simp at h
  · rename_i h1
    split at h
    · simp at h
    · split at h
      · simp at h
      · rename_i h3
        push Not at h1 h3
        cases h
        exact ⟨rfl, h1, h3⟩

theorem check_dom {B : Basis K} {t : K} (ht : B.Dom t) (c4 rtol : K) : B.check c4 rtol t = .ok t := by
  unfold Basis.check
  rw [if_pos (And.intro ht.1 ht.2)]

/-- Evaluation as a sum over the window. -/
theorem Curve.eval_eq {B : Basis K} (hB : B.Valid) {C : Curve K} (hC : C.basis = B) {t : K} (ht : B.Dom t) (c4 rtol : K) :
    ∃ r, B.findInterval t = .ok r ∧ r < B.nIntervals ∧
      (∑ j ∈ range (B.degree + 1), B.val (r + j) t = 1) ∧
      C.eval c4 rtol t = .ok ((List.range C.dim).map fun d =>
        if C.rational then
          npDiv (∑ j ∈ range (B.degree + 1), B.val (r + j) t * (C.pole (r + j) d * C.pole (r + j) C.dim))
            (∑ j ∈ range (B.degree + 1), B.val (r + j) t * C.pole (r + j) C.dim)
        else some (∑ j ∈ range (B.degree + 1), B.val (r + j) t * C.pole (r + j) d)) := by
  obtain ⟨r, hf, hr, h1, h2, h3⟩ := hB.find ht
  refine ⟨r, hf, hr, hB.window_sum h1 h2 h3 ht.2, ?_⟩
  unfold Curve.eval Curve.evalLocal
  have hck : B.check c4 rtol t = .ok t := check_dom ht c4 rtol
  rw [hC, hck]
  simp only [bind, Except.bind]
  rw [hf]
  simp only
  rw [hB.evalVec hr t]
  simp only
  cases hrat : C.rational <;> simp only [Bool.false_eq_true, if_false, if_true, List.map_map]
  · congr 1
    apply List.map_congr_left
    intro d _
    rw [inner_range]; rfl
  · congr 1
    apply List.map_congr_left
    intro d _
    rw [inner_range, inner_range]; rfl

/-- C22, curves. Every point of a curve lies in `aabb()`, for rational curves if the weights are positive. -/
theorem curve_in_aabb (B : Basis K) (hB : B.Valid) (poles : List (List K)) (rational : Bool) (C : Curve K)
    (hC : Curve.init B poles rational = .ok C) (hw : rational = true → ∀ i < B.size, 0 < C.pole i C.dim)
    (t : K) (ht : B.Dom t) (c4 rtol : K) :
    ∃ vs, C.eval c4 rtol t = .ok vs ∧ vs.length = C.dim ∧ ∀ d < C.dim, ∃ x a b, vs[d]? = some (some x) ∧
      C.aabb.1[d]? = some a ∧ C.aabb.2[d]? = some b ∧ a ≤ x ∧ x ≤ b := by
  obtain ⟨rfl, hlen, hrow⟩ := Curve.init_spec hC
  obtain ⟨r, hf, hr, hsum, hev⟩ := Curve.eval_eq hB (C := ⟨B, poles, rational⟩) rfl ht c4 rtol
  have hie := hB.nInt_eq
  refine ⟨_, hev, by simp, ?_⟩
  intro d hd
  set C : Curve K := ⟨B, poles, rational⟩
  have hdw : d < (poles.headD []).length := lt_of_lt_of_le hd (by unfold Curve.dim; simp [C])
  have hpm : ∀ j, j < B.degree + 1 → poles.getD (r + j) [] ∈ poles := by
    intro j hj
    rw [List.getD_eq_getElem?_getD, List.getElem?_eq_getElem (by omega)]
    exact List.getElem_mem _
  have hlo : ∀ j < B.degree + 1, colMin poles d ≤ C.pole (r + j) d := fun j hj => colMin_le poles d _ (hpm j hj)
  have hhi : ∀ j < B.degree + 1, C.pole (r + j) d ≤ colMax poles d := fun j hj => le_colMax poles d _ (hpm j hj)
  have hnn : ∀ j < B.degree + 1, 0 ≤ B.val (r + j) t := fun j _ => hB.eval_nonneg _ _
  have e1 : C.aabb.1[d]? = some (colMin poles d) := by
    simp only [Curve.aabb, C]; rw [List.getElem?_map, List.getElem?_range hdw]; rfl
  have e2 : C.aabb.2[d]? = some (colMax poles d) := by
    simp only [Curve.aabb, C]; rw [List.getElem?_map, List.getElem?_range hdw]; rfl
  rw [List.getElem?_map, List.getElem?_range hd]
  cases hrat : rational with
  | false =>
    obtain ⟨a1, a2⟩ := mean_bounds _ (fun j => B.val (r + j) t) _ hnn hsum _ _ hlo hhi
    exact ⟨_, _, _, by simp [C, hrat], e1, e2, a1, a2⟩
  | true =>
    obtain ⟨a0, a1, a2⟩ := ratio_bounds _ (fun j => B.val (r + j) t) (fun j => C.pole (r + j) C.dim) _ hnn hsum
      (fun j hj => hw hrat _ (by omega)) _ _ hlo hhi
    refine ⟨_, _, _, ?_, e1, e2, a1, a2⟩
    simp only [C, hrat, if_true, Option.map_some, npDiv]
    rw [if_neg]
    simp only [C, hrat] at a0
    exact a0.ne'

/-- C22, boxes of knot spans. Every point of a curve of degree at most 2 lies in the box of its knot span. Missing:
degree 3 and more, see `curve_box_misses_cubic`. -/
theorem curve_in_box_partial (B : Basis K) (hB : B.Valid) (hdeg : B.degree ≤ 2) (poles : List (List K)) (C : Curve K)
    (hC : Curve.init B poles false = .ok C) (t : K) (ht : B.Dom t) (c4 rtol : K) :
    ∃ r vs bx, B.findInterval t = .ok r ∧ C.eval c4 rtol t = .ok vs ∧ vs.length = C.dim ∧ C.boxes[r]? = some bx ∧
      ∀ d < C.dim, ∃ x a b, vs[d]? = some (some x) ∧ bx.1[d]? = some a ∧ bx.2[d]? = some b ∧ a ≤ x ∧ x ≤ b := by
  obtain ⟨rfl, hlen, hrow⟩ := Curve.init_spec hC
  obtain ⟨r, hf, hr, hsum, hev⟩ := Curve.eval_eq hB (C := ⟨B, poles, false⟩) rfl ht c4 rtol
  have hie := hB.nInt_eq
  refine ⟨r, _, (⟨B, poles, false⟩ : Curve K).box r, hf, hev, by simp, ?_, ?_⟩
  · unfold Curve.boxes; rw [List.getElem?_map, List.getElem?_range hr]; rfl
  intro d hd
  set C : Curve K := ⟨B, poles, false⟩
  set rows := (poles.drop r).take 3 with hrows
  have hget : ∀ j, j < B.degree + 1 → rows[j]? = some (poles.getD (r + j) []) := by
    intro j hj
    rw [hrows, List.getElem?_take, if_pos (by omega), List.getElem?_drop, List.getD_eq_getElem?_getD,
      List.getElem?_eq_getElem (by omega)]
    rfl
  have hpm : ∀ j, j < B.degree + 1 → poles.getD (r + j) [] ∈ rows := fun j hj =>
    List.mem_iff_getElem?.2 ⟨j, hget j hj⟩
  have hlo : ∀ j < B.degree + 1, colMin rows d ≤ C.pole (r + j) d := fun j hj => colMin_le rows d _ (hpm j hj)
  have hhi : ∀ j < B.degree + 1, C.pole (r + j) d ≤ colMax rows d := fun j hj => le_colMax rows d _ (hpm j hj)
  have hnn : ∀ j < B.degree + 1, 0 ≤ B.val (r + j) t := fun j _ => hB.eval_nonneg _ _
  have hw : (rows.headD []).length = C.dim := by
    have h0 := hget 0 (by omega)
    have : rows.headD [] = poles.getD (r + 0) [] := by
      rw [List.headD_eq_head?_getD, List.head?_eq_getElem?, h0]; rfl
    rw [this]
    have hm : poles.getD (r + 0) [] ∈ poles := by
      rw [List.getD_eq_getElem?_getD, List.getElem?_eq_getElem (by omega)]
      exact List.getElem_mem _
    rw [hrow _ hm]; simp [Curve.dim, C]
  have hdw : d < (rows.headD []).length := by rw [hw]; exact hd
  have e1 : (C.box r).1[d]? = some (colMin rows d) := by
    simp only [Curve.box, C]; rw [← hrows, List.getElem?_map, List.getElem?_range hdw]; rfl
  have e2 : (C.box r).2[d]? = some (colMax rows d) := by
    simp only [Curve.box, C]; rw [← hrows, List.getElem?_map, List.getElem?_range hdw]; rfl
  rw [List.getElem?_map, List.getElem?_range hd]
  obtain ⟨a1, a2⟩ := mean_bounds _ (fun j => B.val (r + j) t) _ hnn hsum _ _ hlo hhi
  exact ⟨_, _, _, by simp [C], e1, e2, a1, a2⟩

/-- C22 is false for the span boxes of a cubic curve: the boxes always use three poles. -/
theorem curve_box_misses_cubic : ∃ (C : Curve ℚ) (r : Nat) (x a b : ℚ),
    Curve.init ⟨3, [0, 0, 0, 0, 1, 1, 1, 1]⟩ [[0], [0], [0], [1]] false = .ok C ∧
    C.basis.findInterval (1 / 2) = .ok r ∧ C.eval 0 0 (1 / 2) = .ok [some x] ∧ C.boxes[r]? = some ([a], [b]) ∧ b < x := by
  refine ⟨⟨⟨3, [0, 0, 0, 0, 1, 1, 1, 1]⟩, [[0], [0], [0], [1]], false⟩, 0, 1 / 8, 0, 0, ?_, ?_, ?_, ?_, ?_⟩
  all_goals decide +kernel

/-- C18, curves. A non-rational curve starts at its first pole (if the first knot has multiplicity `degree+1`) and ends
at its last pole. -/
theorem curve_ends (B : Basis K) (hB : B.Valid) (poles : List (List K)) (C : Curve K)
    (hC : Curve.init B poles false = .ok C) (c4 rtol : K) :
    (B.k B.degree < B.k (B.degree + 1) →
      C.eval c4 rtol B.lo = .ok ((List.range C.dim).map fun d => some (C.pole 0 d))) ∧
    C.eval c4 rtol B.hi = .ok ((List.range C.dim).map fun d => some (C.pole (B.size - 1) d)) := by
  obtain ⟨rfl, hlen, hrow⟩ := Curve.init_spec hC
  have hie := hB.nInt_eq
  have hip := hB.nInt_pos
  set C : Curve K := ⟨B, poles, false⟩
  -- the sum over the window is the value of the only non-zero function
  have key : ∀ t, B.Dom t → ∀ i0, i0 < B.size → (∀ i, i < B.size → B.val i t = if i = i0 then 1 else 0) →
      C.eval c4 rtol t = .ok ((List.range C.dim).map fun d => some (C.pole i0 d)) := by
    intro t ht i0 hi0 hval
    obtain ⟨r, hf, hr, h1, h2, h3⟩ := hB.find ht
    obtain ⟨r', hf', _, _, hev⟩ := Curve.eval_eq hB (C := C) rfl ht c4 rtol
    rw [hf] at hf'
    cases hf'
    rw [hev]
    congr 1
    apply List.map_congr_left
    intro d _
    simp only [C, Bool.false_eq_true, if_false]
    congr 1
    have hfs := hB.full_sum hr h1 h2 h3 ht.2 (fun i => C.pole i d)
    have e : ∑ j ∈ range (B.degree + 1), B.val (r + j) t * C.pole (r + j) d =
        ∑ j ∈ range (B.degree + 1), C.pole (r + j) d * B.val (r + j) t := sum_congr rfl fun j _ => mul_comm _ _
    simp only [C] at e hfs
    rw [e, ← hfs]
    rw [sum_congr rfl (fun i hi => by rw [hval i (mem_range.1 hi)])]
    simp [hi0]
  constructor
  · intro hx
    apply key _ ⟨le_refl _, hB.lt.le⟩ 0 (by omega)
    intro i hi
    have := (end_values B hB i hi).1 hx
    rw [hB.eval_eq hi] at this
    simpa using this
  · apply key _ ⟨hB.lt.le, le_refl _⟩ _ (by omega)
    intro i hi
    exact hB.eval_hi

/-! ### Surfaces -/

theorem Surface.init_spec {ub vb : Basis K} {poles : List (List (List K))} {rational : Bool} {S : Surface K}
    (h : Surface.init ub vb poles rational = .ok S) : S = ⟨ub, vb, poles, rational⟩ ∧ poles.length = ub.size ∧
      ∀ row ∈ poles, row.length = vb.size ∧ ∀ p ∈ row, p.length = ((poles.headD []).headD []).length := by
  unfold Surface.init at h
  split at h
  · simp at h
  · split at h
    · simp at h
    · split at h
      · simp at h
      · rename_i _ h2 h3
        push Not at h2 h3
        cases h
        exact ⟨rfl, h3.1, fun row hrow => ⟨by rw [(h2 row hrow).1, h3.2], (h2 row hrow).2⟩⟩

theorem inner2_eq (nu nv : Nat) (bu bv : Nat → K) (f : Nat → Nat → K) (iu iv : Nat) :
    inner2 ((List.range nu).map bu) ((List.range nv).map bv) f iu iv =
      ∑ j ∈ range nv, bv j * ∑ i ∈ range nu, bu i * f (iu + i) (iv + j) := by
  unfold inner2
  simp only [List.length_map, List.length_range, inner_range]
  exact sum_congr rfl fun j _ => mul_comm _ _

/-- Evaluation of a non-rational surface as a double sum. -/
theorem Surface.eval_eq {S : Surface K} (hu : S.ub.Valid) (hv : S.vb.Valid) (hr : S.rational = false) {u v : K}
    (du : S.ub.Dom u) (dv : S.vb.Dom v) (c4 rtol : K) :
    ∃ ru rv, S.ub.findInterval u = .ok ru ∧ S.vb.findInterval v = .ok rv ∧ ru < S.ub.nIntervals ∧ rv < S.vb.nIntervals ∧
      (∑ i ∈ range (S.ub.degree + 1), S.ub.val (ru + i) u = 1) ∧
      (∑ j ∈ range (S.vb.degree + 1), S.vb.val (rv + j) v = 1) ∧
      S.eval c4 rtol u v = .ok ((List.range S.dim).map fun d =>
        some (∑ j ∈ range (S.vb.degree + 1), S.vb.val (rv + j) v *
          ∑ i ∈ range (S.ub.degree + 1), S.ub.val (ru + i) u * S.pole (ru + i) (rv + j) d)) := by
  obtain ⟨ru, fu, hru, a1, a2, a3⟩ := hu.find du
  obtain ⟨rv, fv, hrv, b1, b2, b3⟩ := hv.find dv
  refine ⟨ru, rv, fu, fv, hru, hrv, hu.window_sum a1 a2 a3 du.2, hv.window_sum b1 b2 b3 dv.2, ?_⟩
  have hcu : S.ub.check c4 rtol u = .ok u := check_dom du c4 rtol
  have hcv : S.vb.check c4 rtol v = .ok v := check_dom dv c4 rtol
  unfold Surface.eval Surface.evalLocal
  rw [hcu, hcv]
  simp only [bind, Except.bind]
  rw [fu, fv]
  simp only
  rw [hu.evalVec hru u, hv.evalVec hrv v]
  simp only [hr, Bool.false_eq_true, if_false, inner2_eq]

/-- Double averages. -/
theorem mean2_bounds (nu nv : Nat) (bu bv : Nat → K) (f : Nat → Nat → K) (hu : ∀ i < nu, 0 ≤ bu i)
    (hv : ∀ j < nv, 0 ≤ bv j) (su : ∑ i ∈ range nu, bu i = 1) (sv : ∑ j ∈ range nv, bv j = 1) (m M : K)
    (hm : ∀ i < nu, ∀ j < nv, m ≤ f i j) (hM : ∀ i < nu, ∀ j < nv, f i j ≤ M) :
    m ≤ ∑ j ∈ range nv, bv j * ∑ i ∈ range nu, bu i * f i j ∧
    ∑ j ∈ range nv, bv j * ∑ i ∈ range nu, bu i * f i j ≤ M :=
  mean_bounds nv bv (fun j => ∑ i ∈ range nu, bu i * f i j) hv sv m M
    (fun j hj => (mean_bounds nu bu (fun i => f i j) hu su m M (fun i hi => hm i hi j hj) (fun i hi => hM i hi j hj)).1)
    (fun j hj => (mean_bounds nu bu (fun i => f i j) hu su m M (fun i hi => hm i hi j hj) (fun i hi => hM i hi j hj)).2)

theorem Surface.pole_mem {S : Surface K} {i j : Nat} (hi : i < S.poles.length)
    (hrow : ∀ row ∈ S.poles, j < row.length) :
    S.poles.getD i [] ∈ S.poles ∧ (S.poles.getD i [])[j]? = some ((S.poles.getD i []).getD j []) ∧
      (S.poles.getD i []).getD j [] ∈ S.poles.getD i [] := by
  have h1 : S.poles.getD i [] ∈ S.poles := by
    rw [List.getD_eq_getElem?_getD, List.getElem?_eq_getElem hi]; exact List.getElem_mem _
  have hj := hrow _ h1
  refine ⟨h1, ?_, ?_⟩
  · rw [List.getD_eq_getElem?_getD (l := S.poles.getD i []), List.getElem?_eq_getElem hj]; rfl
  · rw [List.getD_eq_getElem?_getD (l := S.poles.getD i []), List.getElem?_eq_getElem hj]; exact List.getElem_mem _

/-- C22, surfaces. Every point of a non-rational surface lies in `aabb()`. -/
theorem surface_in_aabb (ub vb : Basis K) (hu : ub.Valid) (hv : vb.Valid) (poles : List (List (List K))) (S : Surface K)
    (hS : Surface.init ub vb poles false = .ok S) (u v : K) (du : ub.Dom u) (dv : vb.Dom v) (c4 rtol : K) :
    ∃ xs, S.eval c4 rtol u v = .ok xs ∧ xs.length = S.dim ∧ ∀ d < S.dim, ∃ x a b, xs[d]? = some (some x) ∧
      S.aabb.1[d]? = some a ∧ S.aabb.2[d]? = some b ∧ a ≤ x ∧ x ≤ b := by
  obtain ⟨rfl, hlen, hrow⟩ := Surface.init_spec hS
  set S : Surface K := ⟨ub, vb, poles, false⟩ with hSd
  obtain ⟨ru, rv, _, _, hru, hrv, su, sv, hev⟩ := Surface.eval_eq (S := S) hu hv rfl du dv c4 rtol
  have hiu := hu.nInt_eq
  have hiv := hv.nInt_eq
  simp only [S] at hru hrv
  refine ⟨_, hev, by simp, ?_⟩
  intro d hd
  have hmem : ∀ i < ub.degree + 1, ∀ j < vb.degree + 1, (poles.getD (ru + i) []).getD (rv + j) [] ∈ poles.flatten := by
    intro i hi j hj
    obtain ⟨m1, _, m3⟩ := Surface.pole_mem (S := S) (i := ru + i) (j := rv + j) (by simp only [S]; omega)
      (fun row hr => by rw [(hrow row hr).1]; omega)
    exact List.mem_flatten.2 ⟨_, m1, m3⟩
  have hw : (poles.flatten.headD []).length = S.dim := by
    cases hfl : poles.flatten with
    | nil => have := hmem 0 (by omega) 0 (by omega); rw [hfl] at this; simp at this
    | cons p ps =>
      have hp : p ∈ poles.flatten := by rw [hfl]; simp
      obtain ⟨row, h1, h2⟩ := List.mem_flatten.1 hp
      simp only [List.headD_cons]
      rw [(hrow row h1).2 p h2]; simp [Surface.dim, S]
  have hdw : d < (poles.flatten.headD []).length := by rw [hw]; exact hd
  have e1 : S.aabb.1[d]? = some (colMin poles.flatten d) := by
    simp only [Surface.aabb, S]; rw [List.getElem?_map, List.getElem?_range hdw]; rfl
  have e2 : S.aabb.2[d]? = some (colMax poles.flatten d) := by
    simp only [Surface.aabb, S]; rw [List.getElem?_map, List.getElem?_range hdw]; rfl
  obtain ⟨a1, a2⟩ := mean2_bounds (ub.degree + 1) (vb.degree + 1) (fun i => ub.val (ru + i) u) (fun j => vb.val (rv + j) v)
    (fun i j => S.pole (ru + i) (rv + j) d) (fun _ _ => hu.eval_nonneg _ _) (fun _ _ => hv.eval_nonneg _ _) su sv
    (colMin poles.flatten d) (colMax poles.flatten d)
    (fun i hi j hj => colMin_le _ d _ (hmem i hi j hj)) (fun i hi j hj => le_colMax _ d _ (hmem i hi j hj))
  exact ⟨_, _, _, by rw [List.getElem?_map, List.getElem?_range hd]; rfl, e1, e2, a1, a2⟩

/-- C24. Patch numbers and patch positions are in bijection. -/
theorem patch_bijection (S : Surface K) :
    (∀ iu iv, iu < S.ub.nIntervals → iv < S.vb.nIntervals →
      S.pos2id iu iv < S.ub.nIntervals * S.vb.nIntervals ∧ S.id2pos (S.pos2id iu iv) = (iu, iv)) ∧
    (∀ id, id < S.ub.nIntervals * S.vb.nIntervals →
      (S.id2pos id).1 < S.ub.nIntervals ∧ (S.id2pos id).2 < S.vb.nIntervals ∧
      S.pos2id (S.id2pos id).1 (S.id2pos id).2 = id) := by
  generalize hN : S.vb.nIntervals = n
  generalize hM : S.ub.nIntervals = m
  have e1 : ∀ iu iv, S.pos2id iu iv = iu * n + iv := fun iu iv => by unfold Surface.pos2id; rw [hN]
  have e2 : ∀ id, S.id2pos id = (id / n, id - id / n * n) := fun id => by unfold Surface.id2pos; rw [hN]
  constructor
  · intro iu iv h1 h2
    have hn : 0 < n := by omega
    have hd : (iu * n + iv) / n = iu := by
      rw [Nat.add_comm, Nat.add_mul_div_right _ _ hn, Nat.div_eq_of_lt h2, Nat.zero_add]
    refine ⟨?_, ?_⟩
    · rw [e1]
      calc iu * n + iv < iu * n + n := by omega
        _ = (iu + 1) * n := by ring
        _ ≤ m * n := Nat.mul_le_mul_right n h1
    · rw [e1, e2, hd]
      simp
  · intro id hid
    have hn : 0 < n := by
      rcases Nat.eq_zero_or_pos n with h | h
      · rw [h] at hid; simp at hid
      · exact h
    rw [e2]
    have hdm := Nat.div_add_mod id n
    have hml := Nat.mod_lt id hn
    have hle : id / n * n ≤ id := Nat.div_mul_le_self id n
    have hmod : id - id / n * n = id % n := by rw [Nat.mod_eq_sub_div_mul]
    refine ⟨(Nat.div_lt_iff_lt_mul hn).2 hid, by simp only [hmod]; exact hml, ?_⟩
    simp only [e1]
    omega

/-- C22, patch boxes. For biquadratic non-rational surfaces in 3D `bounding_boxes` succeeds and every point lies in the
box stored for its patch. Missing: other degrees, where it raises (`surface_boxes_need_degree_two`) or uses too few
poles. -/
theorem surface_in_box_partial (ub vb : Basis K) (hu : ub.Valid) (hv : vb.Valid) (hdu : ub.degree = 2)
    (hdv : vb.degree = 2) (poles : List (List (List K))) (S : Surface K) (hS : Surface.init ub vb poles false = .ok S)
    (hdim : S.dim = 3) (u v : K) (du : ub.Dom u) (dv : vb.Dom v) (c4 rtol : K) :
    ∃ boxes ru rv xs bx, S.boxes = .ok boxes ∧ ub.findInterval u = .ok ru ∧ vb.findInterval v = .ok rv ∧
      S.eval c4 rtol u v = .ok xs ∧ boxes[S.pos2id ru rv]? = some bx ∧
      ∀ d < 3, ∃ x a b, xs[d]? = some (some x) ∧ bx.1[d]? = some a ∧ bx.2[d]? = some b ∧ a ≤ x ∧ x ≤ b := by
  obtain ⟨rfl, hlen, hrow⟩ := Surface.init_spec hS
  set S : Surface K := ⟨ub, vb, poles, false⟩ with hSd
  obtain ⟨ru, rv, fu, fv, hru, hrv, su, sv, hev⟩ := Surface.eval_eq (S := S) hu hv rfl du dv c4 rtol
  have hiu := hu.nInt_eq
  have hiv := hv.nInt_eq
  simp only [S] at hru hrv fu fv
  have hw3 : ((poles.headD []).headD []).length = 3 := by simpa [Surface.dim, S] using hdim
  let prow : Nat → Nat → List (List K) := fun iu iv =>
    [(0, 0), (0, 1), (0, 2), (1, 0), (1, 1), (1, 2), (2, 0), (2, 1), (2, 2)].map fun (ij : Nat × Nat) =>
      (poles.getD (iu + ij.1) []).getD (iv + ij.2) []
  have hpp : ∀ iu iv, iu < ub.nIntervals → iv < vb.nIntervals → S.patchPoles iu iv = .ok (prow iu iv) := by
    intro iu iv h1 h2
    unfold Surface.patchPoles
    apply mapM_ok
    intro ij hij
    have hb : ij.1 ≤ 2 ∧ ij.2 ≤ 2 := by
      simp only [List.mem_cons, List.not_mem_nil, or_false] at hij
      rcases hij with h | h | h | h | h | h | h | h | h <;> subst h <;> simp
    obtain ⟨m1, m2, m3⟩ := Surface.pole_mem (S := S) (i := iu + ij.1) (j := iv + ij.2) (by simp only [S]; omega)
      (fun row hr => by rw [(hrow row hr).1]; omega)
    rw [m2]
    simp only
    rw [if_pos ((hrow _ m1).2 _ m3 |>.trans hw3)]
  have hbox : ∀ iu iv, iu < ub.nIntervals → iv < vb.nIntervals → S.box iu iv =
      .ok ((List.range 3).map (colMin (prow iu iv)), (List.range 3).map (colMax (prow iu iv))) := by
    intro iu iv h1 h2
    unfold Surface.box
    rw [hpp iu iv h1 h2]; rfl
  obtain ⟨bi1, bi2⟩ := patch_bijection S
  have hboxes : S.boxes = .ok ((List.range (ub.nIntervals * vb.nIntervals)).map fun p =>
      ((List.range 3).map (colMin (prow (p / vb.nIntervals) (p % vb.nIntervals))),
        (List.range 3).map (colMax (prow (p / vb.nIntervals) (p % vb.nIntervals))))) := by
    unfold Surface.boxes
    apply mapM_ok
    intro p hp
    have hp := List.mem_range.1 hp
    obtain ⟨c1, c2, c3⟩ := bi2 p hp
    have hn : 0 < vb.nIntervals := hv.nInt_pos
    have e : p - p / vb.nIntervals * vb.nIntervals = p % vb.nIntervals := by rw [Nat.mod_eq_sub_div_mul]
    simp only [Surface.id2pos, S, e] at c1 c2 c3
    simp only [S]
    rw [if_pos c3.symm]
    exact hbox _ _ c1 c2
  obtain ⟨q1, q2⟩ := bi1 ru rv hru hrv
  have q3 : S.pos2id ru rv / vb.nIntervals = ru ∧ S.pos2id ru rv % vb.nIntervals = rv := by
    simp only [Surface.id2pos, S, Prod.mk.injEq] at q2
    refine ⟨q2.1, ?_⟩
    rw [Nat.mod_eq_sub_div_mul]; exact q2.2
  refine ⟨_, ru, rv, _, _, hboxes, fu, fv, hev, by rw [List.getElem?_map, List.getElem?_range q1]; rfl, ?_⟩
  intro d hd
  beta_reduce
  rw [q3.1, q3.2]
  have hmem : ∀ i < ub.degree + 1, ∀ j < vb.degree + 1, (poles.getD (ru + i) []).getD (rv + j) [] ∈ prow ru rv := by
    intro i hi j hj
    have hi' : i = 0 ∨ i = 1 ∨ i = 2 := by omega
    have hj' : j = 0 ∨ j = 1 ∨ j = 2 := by omega
    refine List.mem_map.2 ⟨(i, j), ?_, rfl⟩
    rcases hi' with h | h | h <;> rcases hj' with h' | h' | h' <;> subst h <;> subst h' <;> simp
  obtain ⟨a1, a2⟩ := mean2_bounds (ub.degree + 1) (vb.degree + 1) (fun i => ub.val (ru + i) u) (fun j => vb.val (rv + j) v)
    (fun i j => S.pole (ru + i) (rv + j) d) (fun _ _ => hu.eval_nonneg _ _) (fun _ _ => hv.eval_nonneg _ _) su sv
    (colMin (prow ru rv) d) (colMax (prow ru rv) d)
    (fun i hi j hj => colMin_le _ d _ (hmem i hi j hj)) (fun i hi j hj => le_colMax _ d _ (hmem i hi j hj))
  refine ⟨_, _, _, by rw [List.getElem?_map, List.getElem?_range (by rw [hdim]; exact hd)]; rfl, ?_, ?_, a1, a2⟩
  · simp only; rw [List.getElem?_map, List.getElem?_range hd]; rfl
  · simp only; rw [List.getElem?_map, List.getElem?_range hd]; rfl

/-- For a valid surface of degree below 2 in some direction `bounding_boxes` never returns. -/
theorem surface_boxes_need_degree_two (ub vb : Basis K) (hu : ub.Valid) (hv : vb.Valid) (poles : List (List (List K)))
    (S : Surface K) (hS : Surface.init ub vb poles false = .ok S) (hd : ub.degree < 2 ∨ vb.degree < 2) :
    ∀ boxes, S.boxes ≠ .ok boxes := by
  obtain ⟨rfl, hlen, hrow⟩ := Surface.init_spec hS
  set S : Surface K := ⟨ub, vb, poles, false⟩
  have hiu := hu.nInt_eq
  have hiv := hv.nInt_eq
  have pu := hu.nInt_pos
  have pv := hv.nInt_pos
  intro boxes hb
  -- a successful mapM means every call succeeded
  have hall : ∀ {α β : Type} (f : α → Except Err β) (l : List α) (r : List β), l.mapM f = .ok r →
      ∀ a ∈ l, ∃ b, f a = .ok b := by
    intro α β f l
    induction l with
    | nil => intro r _ a ha; simp at ha
    | cons x xs ih =>
      intro r hr a ha
      rw [List.mapM_cons] at hr
      cases hx : f x with
      | error e => rw [hx] at hr; simp [bind, Except.bind] at hr
      | ok y =>
        rw [hx] at hr
        simp only [bind, Except.bind] at hr
        cases hxs : xs.mapM f with
        | error e => rw [hxs] at hr; simp at hr
        | ok ys =>
          rcases List.mem_cons.1 ha with rfl | ha
          · exact ⟨y, hx⟩
          · exact ih ys hxs a ha
  obtain ⟨bi1, _⟩ := patch_bijection S
  -- the last patch
  obtain ⟨q1, q2⟩ := bi1 (ub.nIntervals - 1) (vb.nIntervals - 1) (by simp only [S]; omega) (by simp only [S]; omega)
  obtain ⟨b, hb'⟩ := hall _ _ _ hb (S.pos2id (ub.nIntervals - 1) (vb.nIntervals - 1)) (List.mem_range.2 q1)
  have q3 : S.pos2id (ub.nIntervals - 1) (vb.nIntervals - 1) / vb.nIntervals = ub.nIntervals - 1 ∧
      S.pos2id (ub.nIntervals - 1) (vb.nIntervals - 1) % vb.nIntervals = vb.nIntervals - 1 := by
    simp only [Surface.id2pos, S, Prod.mk.injEq] at q2
    refine ⟨q2.1, ?_⟩
    rw [Nat.mod_eq_sub_div_mul]; exact q2.2
  have hS' : S.vb = vb := rfl
  simp only [hS'] at hb'
  rw [q3.1, q3.2, if_pos rfl] at hb'
  unfold Surface.box at hb'
  cases hp : S.patchPoles (ub.nIntervals - 1) (vb.nIntervals - 1) with
  | error e => rw [hp] at hb'; simp [bind, Except.bind] at hb'
  | ok rows =>
    unfold Surface.patchPoles at hp
    obtain ⟨c, hc⟩ := hall _ _ _ hp (2, 2) (by simp)
    simp only [S] at hc
    have hnone : (poles.getD (ub.nIntervals - 1 + 2) [])[vb.nIntervals - 1 + 2]? = none := by
      rw [List.getElem?_eq_none_iff]
      rcases hd with hd | hd
      · have : poles.getD (ub.nIntervals - 1 + 2) [] = [] := by
          rw [List.getD_eq_getElem?_getD, List.getElem?_eq_none (by omega)]; rfl
        rw [this]; simp
      · by_cases hm : ub.nIntervals - 1 + 2 < poles.length
        · have : poles.getD (ub.nIntervals - 1 + 2) [] ∈ poles := by
            rw [List.getD_eq_getElem?_getD, List.getElem?_eq_getElem hm]; exact List.getElem_mem _
          rw [(hrow _ this).1]; omega
        · have : poles.getD (ub.nIntervals - 1 + 2) [] = [] := by
            rw [List.getD_eq_getElem?_getD, List.getElem?_eq_none (by omega)]; rfl
          rw [this]; simp
    rw [hnone] at hc
    simp at hc

/-- C18, surfaces: the four corners of the parameter domain are mapped to the four corner poles. -/
theorem surface_corners (ub vb : Basis K) (hu : ub.Valid) (hv : vb.Valid) (mu : ub.k ub.degree < ub.k (ub.degree + 1))
    (mv : vb.k vb.degree < vb.k (vb.degree + 1)) (poles : List (List (List K)))
    (S : Surface K) (hS : Surface.init ub vb poles false = .ok S) (c4 rtol : K) (eu ev : Bool) :
    S.eval c4 rtol (if eu then ub.hi else ub.lo) (if ev then vb.hi else vb.lo) =
      .ok ((List.range S.dim).map fun d =>
        some (S.pole (if eu then ub.size - 1 else 0) (if ev then vb.size - 1 else 0) d)) := by
  obtain ⟨rfl, hlen, hrow⟩ := Surface.init_spec hS
  set S : Surface K := ⟨ub, vb, poles, false⟩
  -- one direction: a weighted sum over the window picks the end function
  have dir : ∀ (B : Basis K), B.Valid → B.k B.degree < B.k (B.degree + 1) → ∀ (e : Bool),
      B.Dom (if e then B.hi else B.lo) ∧ ∀ r, B.findInterval (if e then B.hi else B.lo) = .ok r → ∀ c : Nat → K,
      ∑ i ∈ range (B.degree + 1), B.val (r + i) (if e then B.hi else B.lo) * c (r + i) =
        c (if e then B.size - 1 else 0) := by
    intro B hB hm e
    have hie := hB.nInt_eq
    have hip := hB.nInt_pos
    have hd : B.Dom (if e then B.hi else B.lo) := by
      cases e
      · exact ⟨le_refl _, hB.lt.le⟩
      · exact ⟨hB.lt.le, le_refl _⟩
    refine ⟨hd, ?_⟩
    intro r hf c
    obtain ⟨r', hf', hr, h1, h2, h3⟩ := hB.find hd
    rw [hf] at hf'
    cases hf'
    have hfs := hB.full_sum hr h1 h2 h3 hd.2 c
    have hval : ∀ i, i < B.size → B.val i (if e then B.hi else B.lo) = if i = (if e then B.size - 1 else 0) then 1 else 0 := by
      intro i hi
      obtain ⟨e1, e2⟩ := end_values B hB i hi
      cases e
      · have := e1 hm
        rw [hB.eval_eq hi] at this
        simpa using this
      · rw [hB.eval_eq hi] at e2
        simpa using e2
    have e1 : ∑ i ∈ range (B.degree + 1), B.val (r + i) (if e then B.hi else B.lo) * c (r + i) =
        ∑ i ∈ range (B.degree + 1), c (r + i) * B.val (r + i) (if e then B.hi else B.lo) :=
      sum_congr rfl fun j _ => mul_comm _ _
    rw [e1, ← hfs, sum_congr rfl (fun i hi => by rw [hval i (mem_range.1 hi)])]
    have hlt : (if e then B.size - 1 else 0) < B.size := by cases e <;> simp <;> omega
    simp only [mul_ite, mul_one, mul_zero, sum_ite_eq', mem_range]
    rw [if_pos hlt]
  obtain ⟨du, pu⟩ := dir ub hu mu eu
  obtain ⟨dv, pv⟩ := dir vb hv mv ev
  obtain ⟨ru, rv, fu, fv, _, _, _, _, hev⟩ := Surface.eval_eq (S := S) hu hv rfl du dv c4 rtol
  rw [hev]
  congr 1
  apply List.map_congr_left
  intro d _
  congr 1
  simp only [S] at fu fv ⊢
  rw [sum_congr rfl (fun j _ => by rw [pu ru fu (fun i => (⟨ub, vb, poles, false⟩ : Surface K).pole i (rv + j) d)])]
  exact pv rv fv (fun j => (⟨ub, vb, poles, false⟩ : Surface K).pole _ j d)

/-! ### C59: copies -/

/-- C59, the part that holds: a copy of a non-rational surface is the same surface. -/
theorem deep_copy_same_partial (ub vb : Basis K) (poles : List (List (List K))) (S : Surface K)
    (hS : Surface.init ub vb poles false = .ok S) : S.deepCopy = .ok S := by
  obtain ⟨rfl, _⟩ := Surface.init_spec hS
  exact hS

/-- C59 is false for rational surfaces: every copy has one dimension more (the weights became a coordinate). -/
theorem deep_copy_loses_rational (ub vb : Basis K) (poles : List (List (List K))) (S : Surface K)
    (hS : Surface.init ub vb poles true = .ok S) (hd : 0 < S.dim) :
    ∃ S', S.deepCopy = .ok S' ∧ S'.rational = false ∧ S'.dim = S.dim + 1 := by
  have h := hS
  obtain ⟨rfl, _⟩ := Surface.init_spec hS
  refine ⟨⟨ub, vb, poles, false⟩, ?_, rfl, ?_⟩
  · unfold Surface.deepCopy
    unfold Surface.init at h ⊢
    split at h
    · simp at h
    · split at h
      · simp at h
      · split at h
        · simp at h
        · rename_i h1 h2 h3
          rw [if_neg h1, if_neg h2, if_neg h3]
  · unfold Surface.dim at hd ⊢
    simp only [if_true] at hd
    simp only [Bool.false_eq_true, if_false, if_true]
    omega

/-! ### Non-vacuity -/

/-- a rational quadratic curve with positive weights and a biquadratic surface in 3D meet the hypotheses -/
example : ∃ (B : Basis ℚ) (C : Curve ℚ), B.Valid ∧ B.degree ≤ 2 ∧
    Curve.init B [[0, 0, 1], [1, 2, 2], [3, 0, 1], [4, 4, 3]] true = .ok C ∧ ∀ i < B.size, 0 < C.pole i C.dim := by
  refine ⟨⟨2, [0, 0, 0, 1, 2, 2, 2]⟩, _, ⟨by decide +kernel, ?_, ?_, by decide, by decide +kernel⟩, by decide, rfl, ?_⟩
  · intro i hi
    have : i = 0 ∨ i = 1 ∨ i = 2 := by have : i ≤ 2 := hi; omega
    rcases this with h | h | h <;> subst h <;> rfl
  · intro i hi
    have : i = 0 ∨ i = 1 ∨ i = 2 := by have : i ≤ 2 := hi; omega
    rcases this with h | h | h <;> subst h <;> rfl
  · decide +kernel

example : ∃ (B : Basis ℚ) (S : Surface ℚ), B.Valid ∧ B.degree = 2 ∧ B.k B.degree < B.k (B.degree + 1) ∧ S.dim = 3 ∧
    Surface.init B B [[[0, 0, 1], [1, 2, 2], [3, 0, 1]], [[0, 0, 1], [1, 5, 2], [3, 0, 1]], [[2, 0, 1], [1, 2, 2], [9, 0, 1]]]
      false = .ok S := by
  refine ⟨⟨2, [0, 0, 0, 2, 2, 2]⟩, _, ⟨by decide +kernel, ?_, ?_, by decide, by decide +kernel⟩, rfl, by decide +kernel, ?_, rfl⟩
  · intro i hi
    have : i = 0 ∨ i = 1 ∨ i = 2 := by have : i ≤ 2 := hi; omega
    rcases this with h | h | h <;> subst h <;> rfl
  · intro i hi
    have : i = 0 ∨ i = 1 ∨ i = 2 := by have : i ≤ 2 := hi; omega
    rcases this with h | h | h <;> subst h <;> rfl
  · rfl

end Verif.Spline
