import Mathlib.Algebra.Order.Field.Basic
import Mathlib.Analysis.Convex.Combination
import Mathlib.Data.List.Chain
import Mathlib.Tactic.Ring
import Mathlib.Tactic.Linarith
import Mathlib.Tactic.FieldSimp
import Mathlib.Tactic.LinearCombination

/-!
Model of `convex_hull_2d` (src/bgem/bspline/bspline_approx.py:138-169) with exact arithmetic in an ordered field, and the proof
that it is the convex hull. The recursion limit of Python is not modelled.
-/
namespace Verif.Approx

set_option linter.unusedSectionVars false

variable {K : Type} [Field K] [LinearOrder K] [IsStrictOrderedRing K]

/-- Component of `dists` for the point `p` and the base `h`, `t` (bspline_approx.py:150-153): the dot product of `p - h` with
`((0,-1),(1,0)) (t - h)`. -/
def side (h t p : K × K) : K := (p.1 - h.1) * -(t.2 - h.2) + (p.2 - h.2) * (t.1 - h.1)

/-- `l[np.argmax(f(l))]` for `a :: l`: the first element with the maximal value. -/
def argmax (f : K × K → K) (a : K × K) : List (K × K) → K × K
  | [] => a
  | b :: l => if f a < f b then argmax f b l else argmax f a l

omit [IsStrictOrderedRing K] in
theorem argmax_mem (f : K × K → K) (a : K × K) (l : List (K × K)) : argmax f a l ∈ a :: l := by
  induction l generalizing a with
  | nil => simp [argmax]
  | cons b l ih =>
    simp only [argmax]
    split
    · exact List.mem_cons_of_mem _ (ih b)
    · have := ih a
      simp only [List.mem_cons] at this ⊢
      tauto

omit [IsStrictOrderedRing K] in
theorem le_argmax (f : K × K → K) (a : K × K) (l : List (K × K)) : ∀ p ∈ a :: l, f p ≤ f (argmax f a l) := by
  induction l generalizing a with
  | nil => simp [argmax]
  | cons b l ih =>
    intro p hp
    simp only [argmax]
    split
    · rename_i h
      rcases List.mem_cons.1 hp with rfl | hp
      · exact le_trans h.le (ih b b (by simp))
      · exact ih b p hp
    · rename_i h
      simp only [List.mem_cons] at hp
      rcases hp with rfl | rfl | hp
      · exact ih _ _ (by simp)
      · exact le_trans (not_lt.1 h) (ih a a (by simp))
      · exact ih a p (by simp [hp])

omit [IsStrictOrderedRing K] in
theorem side_self_left (h t : K × K) : side h t h = 0 := by simp [side]
omit [IsStrictOrderedRing K] in
theorem side_self_right (h t : K × K) : side h t t = 0 := by simp only [side]; ring
omit [IsStrictOrderedRing K] in
theorem side_swap (h t p : K × K) : side t h p = -side h t p := by simp only [side]; ring
omit [IsStrictOrderedRing K] in
theorem side_sum (h t q p : K × K) : side h q p + side q t p = side h t p - side h t q := by simp only [side]; ring

/-- `dome` (bspline_approx.py:142-161). `outer` has the points with positive distance; `sample[np.argmax(dists)]` is its first
element with the maximal distance. -/
def dome (s : List (K × K)) (h t : K × K) : List (K × K) :=
  match _hs : s.filter (fun p => decide (0 < side h t p)) with
  | [] => [h, t]
  | a :: l =>
    let q := argmax (side h t) a l
    dome (a :: l) h q ++ (dome (a :: l) q t).tail
termination_by (s.filter fun p => decide (0 < side h t p)).length
decreasing_by
  all_goals
    rw [_hs]
    refine lt_of_le_of_ne (List.length_filter_le _ _) fun he => ?_
    have := (List.length_filter_eq_length_iff.1 he) _ (argmax_mem (side h t) a l)
    simp [side_self_left, side_self_right] at this

/-- `convex_hull_2d` (bspline_approx.py:138-169). -/
def convexHull2d : List (K × K) → List (K × K)
  | a :: b :: c :: s =>
    let l := argmax (fun p => -p.1) a (b :: c :: s)
    let r := argmax (fun p => p.1) a (b :: c :: s)
    dome (a :: b :: c :: s) l r ++ (dome (a :: b :: c :: s) r l).tail
  | s => s

theorem dome_leaf {s : List (K × K)} {h t : K × K} (e : ∀ p ∈ s, side h t p ≤ 0) : dome s h t = [h, t] := by
  rw [dome]
  split
  · rfl
  · rename_i a l hs
    have : a ∈ s.filter (fun p => decide (0 < side h t p)) := by rw [hs]; simp
    rw [List.mem_filter] at this
    have h1 := e a this.1
    have h2 := of_decide_eq_true this.2
    exact absurd h2 (not_lt.2 h1)

/-- The other case of `dome`: the points on the side, and the pivot. -/
theorem dome_node {s : List (K × K)} {h t p : K × K} (hp : p ∈ s) (h0 : 0 < side h t p) :
    ∃ o q, (∀ x, x ∈ o ↔ x ∈ s ∧ 0 < side h t x) ∧ q ∈ o ∧ (∀ x ∈ o, side h t x ≤ side h t q) ∧
      (o.filter fun x => decide (0 < side h q x)).length < (s.filter fun p => decide (0 < side h t p)).length ∧
      (o.filter fun x => decide (0 < side q t x)).length < (s.filter fun p => decide (0 < side h t p)).length ∧
      dome s h t = dome o h q ++ (dome o q t).tail := by
  rw [dome]
  split
  · rename_i hs
    have : p ∈ s.filter (fun p => decide (0 < side h t p)) := by rw [List.mem_filter]; exact ⟨hp, by simpa using h0⟩
    rw [hs] at this
    simp at this
  · rename_i a l hs
    refine ⟨a :: l, argmax (side h t) a l, fun x => ?_, argmax_mem _ _ _, le_argmax _ _ _, ?_, ?_, rfl⟩
    · rw [← hs, List.mem_filter]; simp
    · rw [hs]
      refine lt_of_le_of_ne (List.length_filter_le _ _) fun he => ?_
      have := (List.length_filter_eq_length_iff.1 he) _ (argmax_mem (side h t) a l)
      simp [side_self_right] at this
    · rw [hs]
      refine lt_of_le_of_ne (List.length_filter_le _ _) fun he => ?_
      have := (List.length_filter_eq_length_iff.1 he) _ (argmax_mem (side h t) a l)
      simp [side_self_left] at this

/-- A point on the inner side of three sides of a triangle is in its convex hull. -/
theorem in_triangle {h t q p : K × K} {s : Set (K × K)} (hh : h ∈ s) (ht : t ∈ s) (hq : q ∈ s) (hD : 0 < side h t q)
    (h1 : 0 ≤ side h t p) (h2 : side h q p ≤ 0) (h3 : side q t p ≤ 0) : p ∈ convexHull K s := by
  have hsum := side_sum h t q p
  have hx : p = (-side q t p / side h t q) • h + (side h t p / side h t q) • q + (-side h q p / side h t q) • t := by
    have hne := hD.ne'
    ext
    · simp only [Prod.fst_add, Prod.smul_fst, smul_eq_mul]
      field_simp
      simp only [side]
      ring
    · simp only [Prod.snd_add, Prod.smul_snd, smul_eq_mul]
      field_simp
      simp only [side]
      ring
  have hc := convex_convexHull K s
  have key := hc.sum_mem (t := Finset.univ) (w := ![-side q t p / side h t q, side h t p / side h t q, -side h q p / side h t q])
    (z := ![h, q, t]) (by
      intro i _
      fin_cases i
      · exact div_nonneg (by linarith) hD.le
      · exact div_nonneg h1 hD.le
      · exact div_nonneg (by linarith) hD.le) (by
      simp only [Fin.sum_univ_three]
      show -side q t p / side h t q + side h t p / side h t q + -side h q p / side h t q = 1
      field_simp
      linarith) (by
      intro i _
      fin_cases i
      · exact subset_convexHull K s hh
      · exact subset_convexHull K s hq
      · exact subset_convexHull K s ht)
  rw [Fin.sum_univ_three] at key
  rw [hx]
  exact key

/-- The points of `dome` between the ends: they are given points on the side, different; all given points on the side are in
the convex hull. -/
theorem dome_spec (n : Nat) : ∀ (s : List (K × K)) (h t : K × K), (s.filter fun p => decide (0 < side h t p)).length ≤ n →
    ∃ m, dome s h t = h :: (m ++ [t]) ∧ (∀ p ∈ m, p ∈ s ∧ 0 < side h t p) ∧ m.Nodup ∧
      ∀ p ∈ s, 0 < side h t p → p ∈ convexHull K {x | x ∈ h :: (m ++ [t])} := by
  induction n with
  | zero =>
    intro s h t hn
    have he : ∀ p ∈ s, side h t p ≤ 0 := by
      intro p hp
      by_contra hc
      have : p ∈ s.filter fun p => decide (0 < side h t p) := List.mem_filter.2 ⟨hp, by simpa using hc⟩
      rw [List.length_eq_zero_iff.1 (Nat.le_zero.1 hn)] at this
      simp at this
    exact ⟨[], dome_leaf he, by simp, by simp, fun p hp h0 => absurd h0 (not_lt.2 (he p hp))⟩
  | succ n ih =>
    intro s h t hn
    by_cases he : ∀ p ∈ s, side h t p ≤ 0
    · exact ⟨[], dome_leaf he, by simp, by simp, fun p hp h0 => absurd h0 (not_lt.2 (he p hp))⟩
    push Not at he
    obtain ⟨p0, hp0, h0⟩ := he
    obtain ⟨o, q, ho, hq, hmax, l1, l2, hd⟩ := dome_node hp0 h0
    obtain ⟨m1, e1, a1, n1, c1⟩ := ih o h q (by omega)
    obtain ⟨m2, e2, a2, n2, c2⟩ := ih o q t (by omega)
    refine ⟨m1 ++ q :: m2, ?_, ?_, ?_, ?_⟩
    · rw [hd, e1, e2]
      simp
    · intro p hp
      simp only [List.mem_append, List.mem_cons] at hp
      rcases hp with hp | rfl | hp
      · exact (ho p).1 (a1 p hp).1
      · exact (ho _).1 hq
      · exact (ho p).1 (a2 p hp).1
    · rw [List.nodup_append]
      refine ⟨n1, List.nodup_cons.2 ⟨fun hc => ?_, n2⟩, ?_⟩
      · have := (a2 q hc).2
        simp [side_self_left] at this
      · intro x hx y hy hxy
        subst hxy
        rcases List.mem_cons.1 hy with rfl | hy
        · have := (a1 x hx).2
          simp [side_self_right] at this
        · have b1 := (a1 x hx).2
          have b2 := (a2 x hy).2
          have b3 := hmax x (a1 x hx).1
          have b4 := side_sum h t q x
          linarith
    · intro p hp hp0
      have hpo := (ho p).2 ⟨hp, hp0⟩
      by_cases g1 : 0 < side h q p
      · refine convexHull_mono ?_ (c1 p hpo g1)
        intro x hx
        simp only [Set.mem_ofPred_eq, List.mem_cons, List.mem_append, List.not_mem_nil, or_false] at hx ⊢
        tauto
      by_cases g2 : 0 < side q t p
      · refine convexHull_mono ?_ (c2 p hpo g2)
        intro x hx
        simp only [Set.mem_ofPred_eq, List.mem_cons, List.mem_append, List.not_mem_nil, or_false] at hx ⊢
        tauto
      refine in_triangle (h := h) (t := t) (q := q) (by simp) (by simp) (by simp) ((ho q).1 hq).2 hp0.le (not_lt.1 g1) (not_lt.1 g2)

/-- The scalar product of `f` and `q - p`. -/
def along (f p q : K × K) : K := f.1 * (q.1 - p.1) + f.2 * (q.2 - p.2)

/-- All points of `all` are on the right of the line from `h` to `t`, or there are lines through `h` and through `t`, with the outer
normals `f` and `g`, that have all points on one side and the other end inside. -/
def Supported (all : List (K × K)) (h t : K × K) : Prop :=
  (∀ p ∈ all, side h t p ≤ 0) ∨
  ∃ f g : K × K, (∀ p ∈ all, along f h p ≤ 0) ∧ (∀ p ∈ all, along g t p ≤ 0) ∧ along f h t < 0 ∧ 0 < along g h t

theorem along_left (f h t q p : K × K) : along f h t * side h q p = -side h t q * along f h p + along f h q * side h t p := by
  simp only [along, side]; ring

theorem along_right (g h t q p : K × K) : along g h t * side q t p = side h t q * along g t p + along g q t * side h t p := by
  simp only [along, side]; ring

/-- `b` follows `a` on the hull: all points are on the right. -/
def Edge (all : List (K × K)) (a b : K × K) : Prop := ∀ p ∈ all, side a b p ≤ 0

/-- All points are on the right of all edges of `dome`. -/
theorem dome_edges (all : List (K × K)) (n : Nat) : ∀ (s : List (K × K)) (h t : K × K),
    (s.filter fun p => decide (0 < side h t p)).length ≤ n → (∀ p ∈ s, p ∈ all) → (∀ p ∈ all, 0 < side h t p → p ∈ s) →
    Supported all h t → (dome s h t).IsChain (Edge all) := by
  induction n with
  | zero =>
    intro s h t hn _ hall _
    have he : ∀ p ∈ all, side h t p ≤ 0 := by
      intro p hp
      by_contra hc
      have : p ∈ s.filter fun p => decide (0 < side h t p) := List.mem_filter.2 ⟨hall p hp (not_le.1 hc), by simpa using hc⟩
      rw [List.length_eq_zero_iff.1 (Nat.le_zero.1 hn)] at this
      simp at this
    rw [dome_leaf fun p hp => he p (by tauto)]
    simpa [Edge] using he
  | succ n ih =>
    intro s h t hn hs hall hsup
    by_cases he : ∀ p ∈ s, side h t p ≤ 0
    · rw [dome_leaf he]
      have : Edge all h t := by
        intro p hp
        by_contra hc
        exact hc (he p (hall p hp (not_le.1 hc)))
      simpa using this
    push Not at he
    obtain ⟨p0, hp0, h0⟩ := he
    obtain ⟨o, q, ho, hq, hmax, l1, l2, hd⟩ := dome_node hp0 h0
    have hq0 := ((ho q).1 hq).2
    have hqa := hs q ((ho q).1 hq).1
    have hoa : ∀ p ∈ o, p ∈ all := fun p hp => hs p ((ho p).1 hp).1
    have hmaxa : ∀ p ∈ all, side h t p ≤ side h t q := by
      intro p hp
      by_cases hp0 : 0 < side h t p
      · exact hmax p ((ho p).2 ⟨hall p hp hp0, hp0⟩)
      · exact le_trans (not_lt.1 hp0) hq0.le
    rcases hsup with hsup | ⟨f, g, hf, hg, hft, hgt⟩
    · exact absurd h0 (not_lt.2 (hsup p0 (hs p0 hp0)))
    have hn1 : ∀ p, along (-(t.2 - h.2), t.1 - h.1) q p = side h t p - side h t q := by
      intro p; simp only [along, side]; ring
    have c1 : (dome o h q).IsChain (Edge all) := by
      have hid := along_left f h t q
      refine ih o h q (by omega) hoa (fun p hp hpos => ?_) ?_
      · by_cases hp0 : 0 < side h t p
        · exact (ho p).2 ⟨hall p hp hp0, hp0⟩
        · have i1 := mul_neg_of_neg_of_pos hft hpos
          have i2 := mul_nonneg_of_nonpos_of_nonpos (neg_nonpos.2 hq0.le) (hf p hp)
          have i3 := mul_nonneg_of_nonpos_of_nonpos (hf q hqa) (not_lt.1 hp0)
          have := hid p
          linarith
      · rcases lt_or_eq_of_le (hf q hqa) with hlt | heq
        · refine Or.inr ⟨f, (-(t.2 - h.2), t.1 - h.1), hf, fun p hp => ?_, hlt, ?_⟩
          · rw [hn1]; linarith [hmaxa p hp]
          · have : along (-(t.2 - h.2), t.1 - h.1) h q = side h t q := by simp only [along, side]; ring
            rw [this]; exact hq0
        · refine Or.inl fun p hp => ?_
          by_contra hc
          have i1 := mul_neg_of_neg_of_pos hft (not_le.1 hc)
          have i2 := mul_nonneg_of_nonpos_of_nonpos (neg_nonpos.2 hq0.le) (hf p hp)
          have := hid p
          rw [heq, zero_mul, add_zero] at this
          linarith
    have c2 : (dome o q t).IsChain (Edge all) := by
      have hid := along_right g h t q
      have hgq : 0 ≤ along g q t := by
        have : along g q t = -along g t q := by simp only [along]; ring
        rw [this]; linarith [hg q hqa]
      refine ih o q t (by omega) hoa (fun p hp hpos => ?_) ?_
      · by_cases hp0 : 0 < side h t p
        · exact (ho p).2 ⟨hall p hp hp0, hp0⟩
        · have i1 := mul_pos hgt hpos
          have i2 := mul_nonpos_of_nonneg_of_nonpos hq0.le (hg p hp)
          have i3 := mul_nonpos_of_nonneg_of_nonpos hgq (not_lt.1 hp0)
          have := hid p
          linarith
      · rcases lt_or_eq_of_le hgq with hlt | heq
        · refine Or.inr ⟨(-(t.2 - h.2), t.1 - h.1), g, fun p hp => ?_, hg, ?_, hlt⟩
          · rw [hn1]; linarith [hmaxa p hp]
          · rw [hn1, side_self_right]; linarith
        · refine Or.inl fun p hp => ?_
          by_contra hc
          have i1 := mul_pos hgt (not_le.1 hc)
          have i2 := mul_nonpos_of_nonneg_of_nonpos hq0.le (hg p hp)
          have := hid p
          rw [← heq, zero_mul, add_zero] at this
          linarith
    obtain ⟨m1, e1, -⟩ := dome_spec _ o h q le_rfl
    obtain ⟨m2, e2, -⟩ := dome_spec _ o q t le_rfl
    rw [hd, e1, e2]
    rw [e1] at c1
    rw [e2] at c2
    have : h :: (m1 ++ [q]) ++ (q :: (m2 ++ [t])).tail = (h :: m1) ++ q :: (m2 ++ [t]) := by simp
    rw [this, List.isChain_split]
    exact ⟨by simpa using c1, c2⟩

/-- `convex_hull_2d` of more than two points that are not on one vertical line is their convex hull: it has the same convex hull,
its points are given points, it is closed, no point is repeated, and all given points are on the right of every edge. -/
theorem hull_correct {s : List (K × K)} (h3 : 2 < s.length) (hx : ∃ p ∈ s, ∃ q ∈ s, p.1 ≠ q.1) :
    (∀ p ∈ convexHull2d s, p ∈ s) ∧
    convexHull K {x | x ∈ convexHull2d s} = convexHull K {x | x ∈ s} ∧
    (convexHull2d s).IsChain (fun a b => ∀ p ∈ s, (b.1 - a.1) * (p.2 - a.2) ≤ (b.2 - a.2) * (p.1 - a.1)) ∧
    (convexHull2d s).head? = (convexHull2d s).getLast? ∧ (convexHull2d s).tail.Nodup ∧ 3 ≤ (convexHull2d s).length := by
  match s, h3, hx with
  | a :: b :: c :: s, _, hx =>
  set S := a :: b :: c :: s with hS
  set l := argmax (fun p => -p.1) a (b :: c :: s) with hl
  set r := argmax (fun p => p.1) a (b :: c :: s) with hr
  have hH : convexHull2d S = dome S l r ++ (dome S r l).tail := rfl
  have hlm : l ∈ S := argmax_mem _ _ _
  have hrm : r ∈ S := argmax_mem _ _ _
  have hlmin : ∀ p ∈ S, l.1 ≤ p.1 := fun p hp => by
    have := le_argmax (fun p : K × K => -p.1) a (b :: c :: s) p hp
    simpa using this
  have hrmax : ∀ p ∈ S, p.1 ≤ r.1 := le_argmax (fun p : K × K => p.1) a (b :: c :: s)
  have hlt : l.1 < r.1 := by
    obtain ⟨p, hp, q, hq, hne⟩ := hx
    rcases lt_or_gt_of_ne hne with h | h
    · exact lt_of_le_of_lt (hlmin p hp) (lt_of_lt_of_le h (hrmax q hq))
    · exact lt_of_le_of_lt (hlmin q hq) (lt_of_lt_of_le h (hrmax p hp))
  obtain ⟨m1, e1, a1, n1, c1⟩ := dome_spec _ S l r le_rfl
  obtain ⟨m2, e2, a2, n2, c2⟩ := dome_spec _ S r l le_rfl
  have hE : convexHull2d S = l :: (m1 ++ r :: (m2 ++ [l])) := by rw [hH, e1, e2]; simp
  have hsub : ∀ p ∈ convexHull2d S, p ∈ S := by
    intro p hp
    rw [hE] at hp
    simp only [List.mem_cons, List.mem_append, List.not_mem_nil, or_false] at hp
    rcases hp with rfl | hp | rfl | hp | rfl
    · exact hlm
    · exact (a1 p hp).1
    · exact hrm
    · exact (a2 p hp).1
    · exact hlm
  refine ⟨hsub, ?_, ?_, ?_, ?_, ?_⟩
  · refine Set.Subset.antisymm (convexHull_mono hsub) (convexHull_min ?_ (convex_convexHull K _))
    intro p hp
    rcases lt_trichotomy (side l r p) 0 with h | h | h
    · refine convexHull_mono ?_ (c2 p hp (by rw [side_swap]; linarith))
      intro x hx
      rw [Set.mem_ofPred_eq, hE]
      simp only [Set.mem_ofPred_eq, List.mem_cons, List.mem_append, List.not_mem_nil, or_false] at hx ⊢
      tauto
    · have hw : 0 < r.1 - l.1 := sub_pos.2 hlt
      have hpe : p = ((r.1 - p.1) / (r.1 - l.1)) • l + ((p.1 - l.1) / (r.1 - l.1)) • r := by
        have hne := hw.ne'
        simp only [side] at h
        ext
        · simp only [Prod.fst_add, Prod.smul_fst, smul_eq_mul]
          field_simp
          ring
        · simp only [Prod.snd_add, Prod.smul_snd, smul_eq_mul]
          field_simp
          linear_combination h
      rw [hpe]
      refine (convex_convexHull K _) (subset_convexHull K _ ?_) (subset_convexHull K _ ?_) (div_nonneg ?_ hw.le) (div_nonneg ?_ hw.le) ?_
      · rw [Set.mem_ofPred_eq, hE]; simp
      · rw [Set.mem_ofPred_eq, hE]; simp
      · linarith [hrmax p hp]
      · linarith [hlmin p hp]
      · rw [← add_div]
        rw [show r.1 - p.1 + (p.1 - l.1) = r.1 - l.1 by ring]
        exact div_self hw.ne'
    · refine convexHull_mono ?_ (c1 p hp h)
      intro x hx
      rw [Set.mem_ofPred_eq, hE]
      simp only [Set.mem_ofPred_eq, List.mem_cons, List.mem_append, List.not_mem_nil, or_false] at hx ⊢
      tauto
  · have d1 := dome_edges S _ S l r le_rfl (fun _ h => h) (fun _ h _ => h) (Or.inr ⟨(-1, 0), (1, 0), fun p hp => by
      simp only [along]; linarith [hlmin p hp], fun p hp => by simp only [along]; linarith [hrmax p hp], by
      simp only [along]; linarith, by simp only [along]; linarith⟩)
    have d2 := dome_edges S _ S r l le_rfl (fun _ h => h) (fun _ h _ => h) (Or.inr ⟨(1, 0), (-1, 0), fun p hp => by
      simp only [along]; linarith [hrmax p hp], fun p hp => by simp only [along]; linarith [hlmin p hp], by
      simp only [along]; linarith, by simp only [along]; linarith⟩)
    rw [e1] at d1
    rw [e2] at d2
    have : (convexHull2d S).IsChain (Edge S) := by
      rw [hE, show l :: (m1 ++ r :: (m2 ++ [l])) = (l :: m1) ++ r :: (m2 ++ [l]) by simp, List.isChain_split]
      exact ⟨by simpa using d1, d2⟩
    refine this.imp fun x y hxy p hp => ?_
    have := hxy p hp
    simp only [side] at this
    linarith
  · rw [hE]
    simp only [List.head?_cons]
    rw [show l :: (m1 ++ r :: (m2 ++ [l])) = (l :: (m1 ++ r :: m2)) ++ [l] by simp, List.getLast?_append]
    simp
  · rw [hE, List.tail_cons, show m1 ++ r :: (m2 ++ [l]) = m1 ++ ((r :: m2) ++ [l]) by simp]
    have hp2 : ∀ p ∈ m2, side l r p < 0 := fun p hp => by
      have := (a2 p hp).2
      rw [side_swap] at this
      linarith
    have hne : r ≠ l := fun h => by rw [h] at hlt; exact lt_irrefl _ hlt
    rw [List.nodup_append, List.nodup_append]
    refine ⟨n1, ⟨List.nodup_cons.2 ⟨fun h => ?_, n2⟩, by simp, ?_⟩, ?_⟩
    · have := hp2 r h
      rw [side_self_right] at this
      exact lt_irrefl _ this
    · intro x hx y hy hxy
      simp only [List.mem_cons, List.not_mem_nil, or_false] at hy
      subst hxy hy
      rcases List.mem_cons.1 hx with h | h
      · exact hne h.symm
      · have := hp2 _ h
        rw [side_self_left] at this
        exact lt_irrefl _ this
    · intro x hx y hy hxy
      subst hxy
      have hpos := (a1 x hx).2
      simp only [List.mem_append, List.mem_cons, List.not_mem_nil, or_false] at hy
      rcases hy with (rfl | hy) | rfl
      · rw [side_self_right] at hpos; exact lt_irrefl _ hpos
      · exact lt_asymm hpos (hp2 x hy)
      · rw [side_self_left] at hpos; exact lt_irrefl _ hpos
  · rw [hE]
    simp only [List.length_cons, List.length_append, List.length_nil]
    omega

theorem argmax_const {f : K × K → K} {a : K × K} {l : List (K × K)} (h : ∀ p ∈ l, f p = f a) : argmax f a l = a := by
  induction l with
  | nil => rfl
  | cons b l ih =>
    rw [argmax, if_neg (by rw [h b (by simp)]; exact lt_irrefl _)]
    exact ih fun p hp => h p (by simp [hp])

/-- Points on one vertical line: only the first point is returned, whatever the others are. -/
theorem hull_vertical (a : K × K) (l : List (K × K)) (h2 : 2 ≤ l.length) (hx : ∀ p ∈ l, p.1 = a.1) :
    convexHull2d (a :: l) = [a, a, a] ∧ ∀ p ∈ l, p ≠ a → p ∉ convexHull K {x | x ∈ convexHull2d (a :: l)} := by
  match l, h2, hx with
  | b :: c :: s, _, hx =>
  have hH : convexHull2d (a :: b :: c :: s) = [a, a, a] := by
    rw [convexHull2d, argmax_const fun p hp => by rw [hx p hp], argmax_const fun p hp => hx p hp,
      dome_leaf fun p _ => by simp [side]]
    rfl
  refine ⟨hH, fun p _ hne hp => hne ?_⟩
  rw [hH, show {x : K × K | x ∈ [a, a, a]} = {a} by ext; simp, convexHull_singleton] at hp
  exact hp

/-- Two points: the result is not closed, although `min_bounding_rect` needs a closed hull (bspline_approx.py:177). -/
theorem hull_two (a b : K × K) (h : a ≠ b) : (convexHull2d [a, b]).head? ≠ (convexHull2d [a, b]).getLast? := by
  simpa [convexHull2d] using h

/-- A triangle with an inner point: the hull has the corners in clockwise order. -/
example : convexHull2d [((0 : ℚ), 0), (1, 1), (1, 3), (2, 0)] = [(0, 0), (1, 3), (2, 0), (0, 0)] := by
  have h1 : dome [((0 : ℚ), 0), (1, 1), (1, 3), (2, 0)] (2, 0) (0, 0) = [(2, 0), (0, 0)] := by
    apply dome_leaf; simp [side]
  have h2 : dome [((1 : ℚ), 1), (1, 3)] (0, 0) (1, 3) = [(0, 0), (1, 3)] := by
    apply dome_leaf; norm_num [side]
  have h3 : dome [((1 : ℚ), 1), (1, 3)] (1, 3) (2, 0) = [(1, 3), (2, 0)] := by
    apply dome_leaf; norm_num [side]
  have h4 : dome [((0 : ℚ), 0), (1, 1), (1, 3), (2, 0)] (0, 0) (2, 0) = [(0, 0), (1, 3), (2, 0)] := by
    rw [dome]
    have hf : [((0 : ℚ), (0 : ℚ)), (1, 1), (1, 3), (2, 0)].filter (fun p => decide (0 < side (0, 0) (2, 0) p)) =
        [(1, 1), (1, 3)] := by decide +kernel
    split
    · rename_i h; rw [hf] at h; simp at h
    · rename_i a l h
      rw [hf] at h
      obtain ⟨rfl, rfl⟩ := List.cons.inj h
      have hq : argmax (side ((0 : ℚ), (0 : ℚ)) (2, 0)) (1, 1) [(1, 3)] = (1, 3) := by decide +kernel
      simp only [hq, h2, h3]
      rfl
  have hl : argmax (fun p : ℚ × ℚ => -p.1) (0, 0) [(1, 1), (1, 3), (2, 0)] = (0, 0) := by decide +kernel
  have hr : argmax (fun p : ℚ × ℚ => p.1) (0, 0) [(1, 1), (1, 3), (2, 0)] = (2, 0) := by decide +kernel
  rw [convexHull2d, hl, hr, h1, h4]
  rfl

end Verif.Approx
