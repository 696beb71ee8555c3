import Verif.Spline.Lemmas
import Mathlib.Algebra.Order.Ring.Rat
import Mathlib.Tactic.NormNum
import Mathlib.Tactic.LinearCombination
/-! Property theorems about `SplineBasis` (C15 - C21, C23). -/
namespace Verif.Spline
open Finset

set_option linter.unusedSectionVars false
variable {K : Type} [Field K] [LinearOrder K] [IsStrictOrderedRing K]

theorem sum_map_range (f : Nat → K) (n : Nat) : ((List.range n).map f).sum = ∑ i ∈ range n, f i := by
  induction n with
  | zero => simp
  | succ n ih => rw [List.range_succ, List.map_append, List.sum_append, ih, sum_range_succ]; simp

theorem inner_map {α : Type} (f g : α → K) (l : List α) : inner (l.map f) (l.map g) = (l.map fun a => f a * g a).sum := by
  induction l with
  | nil => rfl
  | cons a as ih => simp [inner, ih]

theorem inner_range (f g : Nat → K) (n : Nat) :
    inner ((List.range n).map f) ((List.range n).map g) = ∑ i ∈ range n, f i * g i := by
  rw [inner_map, sum_map_range]

/-- All values at `t`. -/
theorem Basis.Valid.evalAll {B : Basis K} (hB : B.Valid) (t : K) :
    (List.range B.size).mapM (fun i => B.eval i t) = .ok ((List.range B.size).map fun i => B.val i t) :=
  mapM_ok _ _ _ fun _ hi => hB.eval_eq (List.mem_range.1 hi) t

/-- The values `eval_vector` returns. -/
theorem Basis.Valid.evalVec {B : Basis K} (hB : B.Valid) {r : Nat} (hr : r < B.nIntervals) (t : K) :
    B.evalVector r t = .ok ((List.range (B.degree + 1)).map fun j => B.val (r + j) t) := by
  have hie := hB.nInt_eq
  exact mapM_ok _ _ _ fun j hj => hB.eval_eq (by have := List.mem_range.1 hj; omega) t

/-! ### C15 and C16 -/

/-- C15. On the whole closed domain the values of all basis functions exist and sum to one. -/
theorem partition_of_unity (B : Basis K) (hB : B.Valid) (t : K) (ht : B.Dom t) :
    ∃ vs, (List.range B.size).mapM (fun i => B.eval i t) = .ok vs ∧ vs.sum = 1 := by
  refine ⟨_, hB.evalAll t, ?_⟩
  obtain ⟨r, _, hr, h1, h2, h3⟩ := hB.find ht
  rw [sum_map_range]
  have := hB.full_sum hr h1 h2 h3 ht.2 (fun _ => 1)
  simp only [one_mul] at this
  rw [this, hB.window_sum h1 h2 h3 ht.2]

/-- C15 for the functions that `eval_vector` evaluates: the window at the found knot interval holds all the weight. -/
theorem partition_of_unity_local (B : Basis K) (hB : B.Valid) (t : K) (ht : B.Dom t) :
    ∃ r vs, B.findInterval t = .ok r ∧ B.evalVector r t = .ok vs ∧ vs.length = B.degree + 1 ∧ vs.sum = 1 ∧
      ∀ i, i < B.size → i < r ∨ r + B.degree < i → B.eval i t = .ok 0 := by
  obtain ⟨r, hf, hr, h1, h2, h3⟩ := hB.find ht
  refine ⟨r, _, hf, hB.evalVec hr t, by simp, ?_, ?_⟩
  · rw [sum_map_range, hB.window_sum h1 h2 h3 ht.2]
  · intro i hi ho
    rw [hB.eval_eq hi, hB.out_zero h1 h2 h3 ht.2 ho]

/-- C16. Every value is between 0 and 1, and it is 0 outside the support `fn_supp` reports. -/
theorem eval_nonneg_support (B : Basis K) (hB : B.Valid) (t : K) (ht : B.Dom t) (i : Nat) (hi : i < B.size) :
    ∃ v, B.eval i t = .ok v ∧ 0 ≤ v ∧ v ≤ 1 ∧ (t < (B.fnSupp i).1 ∨ (B.fnSupp i).2 < t → v = 0) := by
  refine ⟨_, hB.eval_eq hi t, hB.eval_nonneg i t, ?_, ?_⟩
  · obtain ⟨r, _, hr, h1, h2, h3⟩ := hB.find ht
    have := hB.full_sum hr h1 h2 h3 ht.2 (fun _ => 1)
    simp only [one_mul] at this
    rw [hB.window_sum h1 h2 h3 ht.2] at this
    rw [← this]
    exact single_le_sum (f := fun i => B.val i t) (fun j _ => hB.eval_nonneg j t) (mem_range.2 hi)
  · have hse := hB.size_eq
    intro h
    simp only [Basis.fnSupp] at h
    rw [← kx_eq B (by omega), ← kx_eq B (by omega)] at h
    unfold Basis.val
    rw [if_neg, basisFn_zero_out _ hB.mono]
    · rcases h with h | h
      · exact Or.inl h
      · exact Or.inr h.le
    · rintro ⟨e, e'⟩
      subst e'
      rcases h with h | h
      · have : B.kx i = B.kx i := rfl
        exact absurd (hB.kx_le_hi i) (not_le.2 h)
      · rw [hB.kx_hi (by omega)] at h
        exact absurd h (lt_irrefl _)

/-! ### C17 -/

/-- C17. The found interval is in range and contains `t`; half open, except that the upper end of the domain goes to the
last interval. -/
theorem find_interval_correct (B : Basis K) (hB : B.Valid) (t : K) (ht : B.Dom t) :
    ∃ r, B.findInterval t = .ok r ∧ r < B.nIntervals ∧ (B.intervalBounds r).1 ≤ t ∧ t ≤ (B.intervalBounds r).2 ∧
      (t < B.hi → t < (B.intervalBounds r).2) ∧ (t = B.hi → r + 1 = B.nIntervals) := by
  obtain ⟨r, hf, hr, h1, h2, h3⟩ := hB.find ht
  have hse := hB.size_eq
  have hie := hB.nInt_eq
  refine ⟨r, hf, hr, ?_, ?_, ?_, h3⟩
  · simp only [Basis.intervalBounds]; rw [← kx_eq B (by omega)]; exact h1
  · simp only [Basis.intervalBounds]; rw [← kx_eq B (by omega)]
    rcases lt_or_eq_of_le ht.2 with h | h
    · exact (h2 h).le
    · have := h3 h
      rw [hB.kx_hi (by omega)]; exact h.le
  · intro h
    simp only [Basis.intervalBounds]; rw [← kx_eq B (by omega)]; exact h2 h

/-- The assertion of `find_knot_interval` fires below the domain but not above it: every `t` above the domain is put
into the last interval without an error. -/
theorem find_interval_outside (B : Basis K) (hB : B.Valid) (t : K) :
    (t < B.lo → B.findInterval t = .error .assertionError) ∧
    (B.hi < t → B.findInterval t = .ok (B.nIntervals - 1)) := by
  have hl := hB.len
  have hse := hB.size_eq
  have hie := hB.nInt_eq
  have hip := hB.nInt_pos
  have hlen : ((B.knots.take (B.knots.length - B.degree - 1)).drop B.degree).length = B.nIntervals := by
    rw [List.length_drop, List.length_take]; omega
  have hall : ∀ x ∈ (B.knots.take (B.knots.length - B.degree - 1)).drop B.degree, B.lo ≤ x ∧ x ≤ B.hi := by
    intro x hx
    obtain ⟨i, hi⟩ := List.mem_iff_getElem?.1 hx
    rw [List.getElem?_drop, List.getElem?_take] at hi
    split at hi
    · rename_i hlt
      have e : B.kx (B.degree + i) = x := by
        rw [kx_eq B (by omega)]; unfold Basis.k; rw [List.getD_eq_getElem?_getD, hi]; rfl
      rw [← e]
      refine ⟨?_, hB.kx_le_hi _⟩
      rw [← hB.kx_lo (le_refl _)]
      exact hB.mono (by omega)
    · simp at hi
  unfold Basis.findInterval
  simp only
  constructor
  · intro ht
    rw [if_pos]
    left
    unfold searchRight
    cases hc : (B.knots.take (B.knots.length - B.degree - 1)).drop B.degree with
    | nil => rfl
    | cons a as =>
      have := (hall a (by rw [hc]; simp)).1
      rw [List.takeWhile_cons, if_neg]
      · rfl
      · simpa using lt_of_lt_of_le ht this
  · intro ht
    have e : searchRight ((B.knots.take (B.knots.length - B.degree - 1)).drop B.degree) t = B.nIntervals := by
      have gen : ∀ l : List K, (∀ x ∈ l, x ≤ t) → searchRight l t = l.length := by
        intro l
        induction l with
        | nil => intro _; rfl
        | cons x xs ih =>
          intro h
          have ih := ih fun y hy => h y (by simp [hy])
          unfold searchRight at ih ⊢
          rw [List.takeWhile_cons, if_pos (by simpa using h x (by simp)), List.length_cons, ih, List.length_cons]
      rw [gen _ fun x hx => le_trans (hall x hx).2 ht.le, hlen]
    rw [e, if_neg (by omega)]
    congr 1
    omega

/-- `check` accepts exactly the points within the tolerance of the domain, returns points of the domain unchanged, and
moves the others to the nearer end of the domain. -/
theorem check_spec (B : Basis K) (hB : B.Valid) (c4 rtol t : K) (hc : 0 ≤ c4) (hr : 0 ≤ rtol) :
    (B.Dom t → B.check c4 rtol t = .ok t) ∧
    (t < B.lo → (B.lo - (|t| + c4) * rtol ≤ t → B.check c4 rtol t = .ok B.lo) ∧
      (t < B.lo - (|t| + c4) * rtol → B.check c4 rtol t = .error .indexError)) ∧
    (B.hi < t → (t ≤ B.hi + (|t| + c4) * rtol → B.check c4 rtol t = .ok B.hi) ∧
      (B.hi + (|t| + c4) * rtol < t → B.check c4 rtol t = .error .indexError)) := by
  have htol : 0 ≤ (|t| + c4) * rtol := mul_nonneg (add_nonneg (abs_nonneg t) hc) hr
  have hlt := hB.lt
  unfold Basis.check Basis.Dom
  refine ⟨fun h => by rw [if_pos h], fun h => ⟨fun h' => ?_, fun h' => ?_⟩, fun h => ⟨fun h' => ?_, fun h' => ?_⟩⟩
  · rw [if_neg (fun hh => absurd hh.1 (not_le.2 h))]
    simp only
    rw [if_neg (by rw [not_not]; exact ⟨h', by linarith⟩), if_pos h]
  · rw [if_neg (fun hh => absurd hh.1 (not_le.2 h))]
    simp only
    rw [if_pos (fun hh => absurd hh.1 (not_le.2 h'))]
  · rw [if_neg (fun hh => absurd hh.2 (not_le.2 h))]
    simp only
    rw [if_neg (by rw [not_not]; exact ⟨by linarith, h'⟩), if_neg (by rw [not_lt]; linarith)]
  · rw [if_neg (fun hh => absurd hh.2 (not_le.2 h))]
    simp only
    rw [if_pos (fun hh => absurd hh.2 (not_le.2 h'))]

/-! ### C18, basis part -/

/-- C18. At the lower end of the domain only the first function is non-zero, provided the first knot is repeated exactly
`degree+1` times; at the upper end only the last one (no condition). -/
theorem end_values (B : Basis K) (hB : B.Valid) (i : Nat) (hi : i < B.size) :
    (B.k B.degree < B.k (B.degree + 1) → B.eval i B.lo = .ok (if i = 0 then 1 else 0)) ∧
    B.eval i B.hi = .ok (if i = B.size - 1 then 1 else 0) := by
  have hse := hB.size_eq
  have hl := hB.len
  refine ⟨fun hx => ?_, by rw [hB.eval_eq hi, hB.eval_hi]⟩
  rw [hB.eval_eq hi]
  have hd : B.Dom B.lo := ⟨le_refl _, hB.lt.le⟩
  obtain ⟨r, _, hr, h1, h2, h3⟩ := hB.find hd
  have hlt : B.lo < B.kx (B.degree + 1) := by rw [kx_eq B (by omega)]; exact hx
  have e0 : B.val 0 B.lo = 1 := by
    unfold Basis.val
    rw [if_neg (by rintro ⟨_, e⟩; exact absurd e hB.lt.ne)]
    have := basisFn_at_start B.kx hB.mono B.lo B.degree (hB.kx_lo (le_refl _)) hlt B.degree (le_refl _)
      (fun j _ hj => hB.kx_lo hj)
    simpa using this
  by_cases h : i = 0
  · subst h; rw [e0, if_pos rfl]
  · rw [if_neg h]
    have hs := hB.full_sum hr h1 h2 h3 hd.2 (fun _ => 1)
    simp only [one_mul] at hs
    rw [hB.window_sum h1 h2 h3 hd.2] at hs
    have h01 : B.val i B.lo ≤ 0 := by
      have : B.val 0 B.lo + B.val i B.lo ≤ ∑ j ∈ range B.size, B.val j B.lo := by
        rw [← sum_pair (f := fun j => B.val j B.lo) (Ne.symm h)]
        apply sum_le_sum_of_subset_of_nonneg
        · intro j hj
          simp only [Finset.mem_insert, Finset.mem_singleton] at hj
          exact mem_range.2 (by omega)
        · intro j _ _; exact hB.eval_nonneg j _
      rw [hs, e0] at this
      linarith
    rw [le_antisymm h01 (hB.eval_nonneg i _)]

/-! ### C19 -/

/-- C19. For quadratic bases the closed formula of `_eval_vector_deg_2` gives, on the whole domain, the same three values
as the recursion, if the last interval is not empty. -/
theorem fast_deg2 (B : Basis K) (hB : B.Valid) (h2d : B.degree = 2) (hend : B.k (B.size - 1) < B.hi) (t : K)
    (ht : B.Dom t) : ∃ r, B.findInterval t = .ok r ∧ B.evalVector r t = .ok (B.evalVector2 r t) ∧
      (B.evalVector2 r t).sum = 1 := by
  obtain ⟨r, hf, hr, h1, h2, h3⟩ := hB.find ht
  have hse := hB.size_eq
  have hie := hB.nInt_eq
  have hsum := hB.window_sum h1 h2 h3 ht.2
  have hv := hB.evalVec hr t
  suffices hval : ((List.range (B.degree + 1)).map fun j => B.val (r + j) t) = B.evalVector2 r t by
    refine ⟨r, hf, by rw [hv, hval], ?_⟩
    rw [← hval, sum_map_range, hsum]
  rw [h2d] at h1 h2 hse hie ⊢
  simp only [Basis.evalVector2]
  rw [← kx_eq B (i := r + 1) (by omega), ← kx_eq B (i := r + 2) (by omega), ← kx_eq B (i := r + 3) (by omega),
    ← kx_eq B (i := r + 4) (by omega)]
  have m1 : B.kx (r + 1) ≤ B.kx (r + 2) := hB.mono (by omega)
  have m3 : B.kx (r + 3) ≤ B.kx (r + 4) := hB.mono (by omega)
  rcases lt_or_eq_of_le ht.2 with h | h
  · have h2 := h2 h
    have hv' : ∀ j, B.val (r + j) t = basisFn B.kx 2 (r + j) t := by
      intro j; unfold Basis.val
      rw [if_neg (by rintro ⟨_, e⟩; exact absurd e h.ne), h2d]
    have b0 : ∀ i, i ≠ r + 2 → basisFn B.kx 0 i t = 0 := by
      intro i hi
      apply basisFn_zero_out _ hB.mono
      rcases Nat.lt_or_gt_of_ne hi with hh | hh
      · exact Or.inr (le_trans (hB.mono (by omega)) h1)
      · exact Or.inl (lt_of_lt_of_le h2 (hB.mono (by omega)))
    have b1 : basisFn B.kx 0 (r + 2) t = 1 := by simp only [basisFn]; rw [if_pos ⟨h1, h2⟩]
    have d32 : B.kx (r + 3) - B.kx (r + 2) ≠ 0 := (sub_pos.2 (lt_of_le_of_lt h1 h2)).ne'
    have d31 : B.kx (r + 3) - B.kx (r + 1) ≠ 0 :=
      (sub_pos.2 (lt_of_le_of_lt m1 (lt_of_le_of_lt h1 h2))).ne'
    have d42 : B.kx (r + 4) - B.kx (r + 2) ≠ 0 :=
      (sub_pos.2 (lt_of_lt_of_le (lt_of_le_of_lt h1 h2) m3)).ne'
    simp only [List.range_succ, List.range_zero, List.nil_append, List.cons_append, List.map_cons, List.map_nil, hv',
      Nat.add_zero, List.cons.injEq, and_true]
    refine ⟨?_, ?_, ?_⟩
    · simp only [basisFn_succ, b0 r (by omega), b0 (r + 1) (by omega), b1, Nat.add_assoc, Nat.reduceAdd, mul_zero,
        zero_add, mul_one]
      field_simp
    · simp only [basisFn_succ, b0 (r + 1) (by omega), b0 (r + 3) (by omega), b1, Nat.add_assoc, Nat.reduceAdd, mul_zero,
        zero_add, mul_one, add_zero]
      field_simp
    · simp only [basisFn_succ, b0 (r + 4) (by omega), b0 (r + 3) (by omega), b1, Nat.add_assoc, Nat.reduceAdd, mul_zero,
        zero_add, mul_one, add_zero]
      field_simp
  · subst h
    have h3 := h3 rfl
    have es : B.size = r + 3 := by omega
    have k3 : B.kx (r + 3) = B.hi := hB.kx_hi (by omega)
    have k4 : B.kx (r + 4) = B.hi := hB.kx_hi (by omega)
    have k2 : B.kx (r + 2) < B.hi := by
      rw [kx_eq B (by omega)]
      have : r + 2 = B.size - 1 := by omega
      rw [this]; exact hend
    have d32 : B.hi - B.kx (r + 2) ≠ 0 := (sub_pos.2 k2).ne'
    simp only [List.range_succ, List.range_zero, List.nil_append, List.cons_append, List.map_cons, List.map_nil,
      hB.eval_hi, k3, k4, es]
    simp
    field_simp

/-! ### C20 -/

theorem packLoop_unpack (qs : List K) : ∀ last m,
    (packLoop qs last m).flatMap (fun qm => List.replicate qm.2 qm.1) = List.replicate m last ++ qs := by
  induction qs with
  | nil => intro last m; simp [packLoop]
  | cons q qs ih =>
    intro last m
    unfold packLoop
    split
    · rename_i h
      rw [ih, h, List.replicate_succ', List.append_assoc]; rfl
    · rw [List.flatMap_cons, ih]; simp

theorem packLoop_replicate (q : K) (m : Nat) : ∀ c rest,
    packLoop (List.replicate m q ++ rest) q c = packLoop rest q (c + m) := by
  induction m with
  | zero => intro c rest; simp
  | succ m ih =>
    intro c rest
    rw [List.replicate_succ, List.cons_append, packLoop, if_pos rfl, ih]
    congr 1
    omega

/-- C20, first half: unpacking the packed knots gives the knot vector, hence the same basis object. -/
theorem unpack_pack (degree : Nat) (knots : List K) (B : Basis K) (hB : Basis.init degree knots = .ok B) :
    Basis.fromPacked degree B.packKnots = .ok B := by
  have hk : B.knots = knots ∧ B.degree = degree := by
    unfold Basis.init at hB
    cases hf : (List.range degree).forM (checkEnd knots) with
    | error e => rw [hf] at hB; simp [bind, Except.bind] at hB
    | ok u =>
      rw [hf] at hB
      simp only [bind, Except.bind] at hB
      split at hB
      · simp at hB
      · cases hB; exact ⟨rfl, rfl⟩
  unfold Basis.fromPacked Basis.packKnots
  rw [packLoop_unpack, hk.1]
  simpa using hB

/-- C20, second half: packing an unpacked list gives the list back, if the multiplicities are positive and neighbouring
values differ. -/
theorem pack_unpack (degree : Nat) (packed : List (K × Nat)) (hne : packed ≠ []) (hpos : ∀ qm ∈ packed, 0 < qm.2)
    (hch : packed.IsChain (fun a b => a.1 ≠ b.1)) (B : Basis K) (hB : Basis.fromPacked degree packed = .ok B) :
    B.packKnots = packed := by
  have hk : B.knots = packed.flatMap fun qm => List.replicate qm.2 qm.1 := by
    unfold Basis.fromPacked Basis.init at hB
    generalize (packed.flatMap fun qm => List.replicate qm.2 qm.1) = ks at hB
    cases hf : (List.range degree).forM (checkEnd ks) with
    | error e => rw [hf] at hB; simp [bind, Except.bind] at hB
    | ok u =>
      rw [hf] at hB
      simp only [bind, Except.bind] at hB
      split at hB
      · simp at hB
      · cases hB; rfl
  have loop : ∀ (l : List (K × Nat)) (a : K × Nat), 0 < a.2 → (∀ qm ∈ l, 0 < qm.2) →
      (a :: l).IsChain (fun a b => a.1 ≠ b.1) →
      packLoop (l.flatMap fun qm => List.replicate qm.2 qm.1) a.1 a.2 = a :: l := by
    intro l
    induction l with
    | nil => intro a _ _ _; simp [packLoop]
    | cons b l ih =>
      intro a ha hl hc
      obtain ⟨m, hm⟩ : ∃ m, b.2 = m + 1 := ⟨b.2 - 1, by have := hl b (by simp); omega⟩
      rw [List.isChain_cons_cons] at hc
      rw [List.flatMap_cons, hm, List.replicate_succ, List.cons_append, packLoop, if_neg (Ne.symm hc.1),
        packLoop_replicate]
      have := ih b (hl b (by simp)) (fun x hx => hl x (by simp [hx])) hc.2
      rw [show 1 + m = b.2 by omega, this]
  cases packed with
  | nil => exact absurd rfl hne
  | cons a l =>
    obtain ⟨m, hm⟩ : ∃ m, a.2 = m + 1 := ⟨a.2 - 1, by have := hpos a (by simp); omega⟩
    have hk0 : B.k 0 = a.1 := by unfold Basis.k; rw [hk, List.flatMap_cons, hm, List.replicate_succ]; rfl
    unfold Basis.packKnots
    rw [hk0, hk, List.flatMap_cons, packLoop_replicate, Nat.zero_add]
    exact loop l a (hpos a (by simp)) (fun x hx => hpos x (by simp [hx])) hch

/-! ### C21 -/

theorem forM_ok (f : Nat → Except Err Unit) (l : List Nat) (h : ∀ i ∈ l, f i = .ok ()) : l.forM f = .ok () := by
  induction l with
  | nil => rfl
  | cons a as ih =>
    change (f a >>= fun _ => as.forM f) = _
    rw [h a (by simp)]
    exact ih (fun i hi => h i (by simp [hi]))

/-- The constructor accepts every list with repeated ends. -/
theorem init_ok (degree : Nat) (knots : List K) (hl : degree + 1 ≤ knots.length)
    (h1 : ∀ i ≤ degree, knots[i]? = knots[0]?) (h2 : ∀ i ≤ degree, knots.reverse[i]? = knots.reverse[0]?) :
    Basis.init degree knots = .ok ⟨degree, knots⟩ := by
  unfold Basis.init
  rw [forM_ok]
  · simp only [bind, Except.bind]
    rw [if_neg (by omega)]
  · intro i hi
    have hi := List.mem_range.1 hi
    unfold checkEnd
    have e1 := List.getElem?_eq_getElem (l := knots) (i := i) (by omega)
    have e2 := List.getElem?_eq_getElem (l := knots) (i := i + 1) (by omega)
    rw [e1, e2]
    simp only
    have := (h1 i (by omega)).trans (h1 (i + 1) (by omega)).symm
    rw [e1, e2] at this
    rw [if_pos (by simpa using this), if_pos]
    rw [h2 i (by omega), h2 (i + 1) (by omega)]

/-- C21. `make_equidistant` succeeds and gives a proper basis on `[a, b]` with `n` intervals of equal length. -/
theorem equidistant_valid (degree n : Nat) (a b : K) (hn : 0 < n) (hab : a < b) :
    ∃ B, Basis.equidistant degree n a b = .ok B ∧ B.Valid ∧ B.degree = degree ∧
      B.knots.length = n + 2 * degree + 1 ∧ B.size = n + degree ∧ B.nIntervals = n ∧ B.lo = a ∧ B.hi = b ∧
      ∀ i, i ≤ n → B.k (degree + i) = a + (i : K) * ((b - a) / (n : K)) := by
  have hnK : (n : K) ≠ 0 := by exact_mod_cast hn.ne'
  have hnp : (0 : K) < n := by exact_mod_cast hn
  set L := n + 2 * degree + 1 with hL
  set ks := (List.range L).map (equiKnot degree n a b) with hks
  have hlen : ks.length = L := by simp [hks]
  have hget : ∀ i, i < L → ks[i]? = some (equiKnot degree n a b i) := by
    intro i hi; rw [hks, List.getElem?_map, List.getElem?_range hi]; rfl
  have hdp : 0 ≤ (b - a) / (n : K) := div_nonneg (sub_pos.2 hab).le hnp.le
  have hknot : ∀ i, i ≤ n → equiKnot degree n a b (degree + i) = a + (i : K) * ((b - a) / (n : K)) := by
    intro i hi
    unfold equiKnot
    simp only
    by_cases hin : i = n
    · rw [if_pos (by omega), hin]; field_simp; ring
    · rw [if_neg (by omega)]
      by_cases h0 : i = 0
      · rw [if_neg (by omega), h0]; simp
      · rw [if_pos (by omega)]; push_cast; ring
  have hlow : ∀ i, i ≤ degree → equiKnot degree n a b i = a := by
    intro i hi
    unfold equiKnot
    simp only
    rw [if_neg (by omega), if_neg (by omega)]
  have hhigh : ∀ i, degree + n ≤ i → i < L → equiKnot degree n a b i = b := by
    intro i hi hi'
    unfold equiKnot
    simp only
    rw [if_pos (by omega)]
  have hstart : ∀ i ≤ degree, ks[i]? = ks[0]? := by
    intro i hi
    rw [hget i (by omega), hget 0 (by omega), hlow i hi, hlow 0 (by omega)]
  have hstop : ∀ i ≤ degree, ks.reverse[i]? = ks.reverse[0]? := by
    intro i hi
    rw [List.getElem?_reverse (by omega), List.getElem?_reverse (by omega), hlen, hget _ (by omega), hget _ (by omega),
      hhigh _ (by omega) (by omega), hhigh _ (by omega) (by omega)]
  have hk : ∀ i, i < L → (⟨degree, ks⟩ : Basis K).k i = equiKnot degree n a b i := by
    intro i hi
    unfold Basis.k
    simp only
    rw [List.getD_eq_getElem?_getD, hget i hi]
    rfl
  have hlo : (⟨degree, ks⟩ : Basis K).lo = a := by
    unfold Basis.lo
    simp only
    rw [hk _ (by omega), hlow _ (le_refl _)]
  have hhi : (⟨degree, ks⟩ : Basis K).hi = b := by
    unfold Basis.hi
    simp only [hlen]
    rw [hk _ (by omega), hhigh _ (by omega) (by omega)]
  refine ⟨⟨degree, ks⟩, ?_, ⟨?_, hstart, hstop, ?_, ?_⟩, rfl, hlen, ?_, ?_, hlo, hhi, ?_⟩
  · unfold Basis.equidistant
    exact init_ok degree ks (by omega) hstart hstop
  · rw [List.pairwise_iff_getElem]
    intro i j hi hj hij
    simp only [hlen] at hi hj
    have ei : ks[i]? = some ks[i] := List.getElem?_eq_getElem (by omega)
    have ej : ks[j]? = some ks[j] := List.getElem?_eq_getElem (by omega)
    rw [hget i hi] at ei
    rw [hget j hj] at ej
    simp only [Option.some.injEq] at ei ej
    simp only
    rw [← ei, ← ej]
    -- piecewise comparison
    have hrange : ∀ i, i < L → a ≤ equiKnot degree n a b i ∧ equiKnot degree n a b i ≤ b := by
      intro i hi
      by_cases h1 : i ≤ degree
      · rw [hlow i h1]; exact ⟨le_refl _, hab.le⟩
      · by_cases h2 : degree + n ≤ i
        · rw [hhigh i h2 hi]; exact ⟨hab.le, le_refl _⟩
        · obtain ⟨x, rfl⟩ : ∃ x, i = degree + x := ⟨i - degree, by omega⟩
          rw [hknot x (by omega)]
          refine ⟨by have := mul_nonneg (Nat.cast_nonneg (α := K) x) hdp; linarith, ?_⟩
          have : (x : K) * ((b - a) / n) ≤ (n : K) * ((b - a) / n) :=
            mul_le_mul_of_nonneg_right (by exact_mod_cast (by omega : x ≤ n)) hdp
          have e : (n : K) * ((b - a) / n) = b - a := by field_simp
          linarith
    by_cases h1 : i ≤ degree
    · have e := (hlow i h1)
      rw [e]
      exact (hrange j hj).1
    · by_cases h2 : degree + n ≤ j
      · rw [hhigh j h2 hj]
        exact (hrange i hi).2
      · obtain ⟨x, rfl⟩ : ∃ x, i = degree + x := ⟨i - degree, by omega⟩
        obtain ⟨y, rfl⟩ : ∃ y, j = degree + y := ⟨j - degree, by omega⟩
        have ex := hknot x (by omega)
        have ey := hknot y (by omega)
        have : (x : K) * ((b - a) / n) ≤ (y : K) * ((b - a) / n) :=
          mul_le_mul_of_nonneg_right (by exact_mod_cast (by omega : x ≤ y)) hdp
        rw [ex, ey]
        linarith
  · simp only [hlen]; omega
  · rw [hlo, hhi]; exact hab
  · simp only [Basis.size, hlen]; omega
  · simp only [Basis.nIntervals, Basis.size, hlen]; omega
  · intro i hi
    rw [hk _ (by omega), hknot i hi]

/-- C21 fails for an integer `knot_range`: with `[0, 1]` every inner knot is truncated to 0, for every degree and every
number of intervals. -/
theorem equidistant_int_range_collapses (degree n : Nat) (j : Nat) (hj : j < n) :
    equiKnotInt degree n 0 1 (degree + j) = 0 := by
  unfold equiKnotInt
  simp only
  rw [if_neg (by omega)]
  split
  · have e : ((degree + j : Nat) : Int) - (degree : Int) = (j : Int) := by omega
    rw [e]
    simp only [sub_zero, mul_one, zero_mul, add_zero]
    exact Int.tdiv_eq_zero_of_lt (by omega) (by omega)
  · rfl

/-! ### C23 -/

/-- C23, what the code computes: the spline with the poles of `make_linear_poles` is `t - domain[0]`. -/
theorem linear_poles_value (B : Basis K) (hB : B.Valid) (hd : 0 < B.degree) (t : K) (ht : B.Dom t) :
    ∃ vs, (List.range B.size).mapM (fun i => B.eval i t) = .ok vs ∧ inner B.linearPoles vs = t - B.lo := by
  refine ⟨_, hB.evalAll t, ?_⟩
  have hse := hB.size_eq
  have hie := hB.nInt_eq
  have hdK : (B.degree : K) ≠ 0 := by exact_mod_cast hd.ne'
  have hpole : ∀ i, i < B.size → B.linearPole i = grev B.kx i B.degree / B.degree - B.lo := by
    intro i
    induction i with
    | zero =>
      intro _
      have : grev B.kx 0 B.degree = B.degree * B.lo := by
        unfold grev
        rw [sum_congr rfl (fun j hj => hB.kx_lo (by have := mem_range.1 hj; omega)), sum_const, card_range,
          nsmul_eq_mul]
      rw [this, mul_div_cancel_left₀ _ hdK]
      simp [Basis.linearPole]
    | succ i ih =>
      intro hi
      have hg : grev B.kx (i + 1) B.degree = grev B.kx i B.degree + (B.kx (i + B.degree + 1) - B.kx (i + 1)) := by
        have e1 := sum_range_succ (fun j => B.kx (i + 1 + j)) B.degree
        have e2 := sum_range_succ' (fun j => B.kx (i + 1 + j)) B.degree
        unfold grev
        have e3 : ∑ j ∈ range B.degree, B.kx (i + 1 + 1 + j) = ∑ j ∈ range B.degree, B.kx (i + 1 + (j + 1)) :=
          sum_congr rfl fun j _ => by congr 1; omega
        rw [e3]
        rw [e1] at e2
        have e4 : i + 1 + B.degree = i + B.degree + 1 := by omega
        rw [e4] at e2
        simp only [Nat.add_zero] at e2
        linear_combination -e2
      rw [Basis.linearPole, ih (by omega), hg, kx_eq B (i := i + B.degree + 1) (by omega),
        kx_eq B (i := i + 1) (by omega)]
      ring
  obtain ⟨r, _, hr, h1, h2, h3⟩ := hB.find ht
  unfold Basis.linearPoles
  rw [inner_range, hB.full_sum hr h1 h2 h3 ht.2]
  have hw := hB.window_sum h1 h2 h3 ht.2
  have : ∀ j ∈ range (B.degree + 1), B.linearPole (r + j) * B.val (r + j) t =
      (1 / (B.degree : K)) * (grev B.kx (r + j) B.degree * B.val (r + j) t) - B.lo * B.val (r + j) t := by
    intro j hj
    have := mem_range.1 hj
    rw [hpole _ (by omega)]
    field_simp
  rw [sum_congr rfl this, sum_sub_distrib, ← mul_sum, ← mul_sum, hw, mul_one]
  congr 1
  have key : ∑ j ∈ range (B.degree + 1), grev B.kx (r + j) B.degree * B.val (r + j) t = B.degree * t := by
    rcases lt_or_eq_of_le ht.2 with h | h
    · have := sum_linear B.kx hB.mono t (r + B.degree) h1 (h2 h) B.degree (by omega)
      rw [← this]
      refine sum_congr rfl fun j _ => ?_
      unfold Basis.val
      rw [if_neg (by rintro ⟨_, e⟩; exact absurd e h.ne)]
      have e : r + B.degree - B.degree + j = r + j := by omega
      rw [e]
    · subst h
      have h3 := h3 rfl
      rw [sum_range_succ, sum_eq_zero, zero_add, hB.eval_hi, if_pos (by omega), mul_one]
      · unfold grev
        rw [sum_congr rfl (fun j hj => hB.kx_hi (by have := mem_range.1 hj; omega)), sum_const, card_range,
          nsmul_eq_mul]
      · intro j hj
        have := mem_range.1 hj
        rw [hB.eval_hi, if_neg (by omega), mul_zero]
  rw [key]
  field_simp

/-- C23, the part that holds: on a domain that starts at 0 the spline is the identity. Missing: other domains, see
`linear_poles_wrong`. -/
theorem linear_poles_identity_partial (B : Basis K) (hB : B.Valid) (hd : 0 < B.degree) (h0 : B.lo = 0) (t : K)
    (ht : B.Dom t) :
    ∃ vs, (List.range B.size).mapM (fun i => B.eval i t) = .ok vs ∧ inner B.linearPoles vs = t := by
  obtain ⟨vs, h1, h2⟩ := linear_poles_value B hB hd t ht
  exact ⟨vs, h1, by rw [h2, h0, sub_zero]⟩

/-- C23 is false for every basis whose domain does not start at 0, at every point. -/
theorem linear_poles_wrong (B : Basis K) (hB : B.Valid) (hd : 0 < B.degree) (h0 : B.lo ≠ 0) (t : K) (ht : B.Dom t) :
    ∃ vs, (List.range B.size).mapM (fun i => B.eval i t) = .ok vs ∧ inner B.linearPoles vs ≠ t := by
  obtain ⟨vs, h1, h2⟩ := linear_poles_value B hB hd t ht
  refine ⟨vs, h1, ?_⟩
  rw [h2]
  intro h
  exact h0 (by linarith)

/-! ### Non-vacuity: a cubic basis with a double inner knot -/

/-- degree 3, knots 0,0,0,0,1,1,3,3,3,3 -/
def sampleB : Basis ℚ := ⟨3, [0, 0, 0, 0, 1, 1, 3, 3, 3, 3]⟩

theorem sampleB_valid : sampleB.Valid := by
  refine ⟨?_, ?_, ?_, ?_, ?_⟩
  · decide +kernel
  · intro i hi
    have : i = 0 ∨ i = 1 ∨ i = 2 ∨ i = 3 := by have : i ≤ 3 := hi; omega
    rcases this with h | h | h | h <;> subst h <;> rfl
  · intro i hi
    have : i = 0 ∨ i = 1 ∨ i = 2 ∨ i = 3 := by have : i ≤ 3 := hi; omega
    rcases this with h | h | h | h <;> subst h <;> rfl
  · decide
  · decide +kernel

example : sampleB.Dom 2 ∧ sampleB.k sampleB.degree < sampleB.k (sampleB.degree + 1) := by
  refine ⟨⟨by decide +kernel, by decide +kernel⟩, by decide +kernel⟩

/-- a quadratic basis on `[1, 4]` (hypotheses of `fast_deg2` and of `linear_poles_wrong`) -/
example : ∃ B : Basis ℚ, B.Valid ∧ B.degree = 2 ∧ B.lo ≠ 0 ∧ B.k (B.size - 1) < B.hi := by
  obtain ⟨B, _, hv, hd, hl, hs, _, hlo, hhi, hk⟩ := equidistant_valid (K := ℚ) 2 3 1 4 (by norm_num) (by norm_num)
  refine ⟨B, hv, hd, by rw [hlo]; norm_num, ?_⟩
  rw [hhi, hs]
  have := hk 2 (by norm_num)
  rw [show 3 + 2 - 1 = 2 + 2 by norm_num, this]
  norm_num

end Verif.Spline
