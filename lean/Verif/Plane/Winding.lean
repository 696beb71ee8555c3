import Verif.Plane.Tiling
import Mathlib.Algebra.BigOperators.Group.List.Basic

/-! `Polygon.vertices` and `Wire.segments`: the direction in which wires run around the points inside them. -/

namespace Verif.Plane

section
variable {K : Type} [Field K] [LinearOrder K]

/-- How often the edge from `a` to `b` crosses the ray to the right of `x` upwards. -/
def climb (a b x : K × K) : ℤ :=
  if a.2 ≤ x.2 ∧ x.2 < b.2 ∧ 0 < side a b x then 1
  else if b.2 ≤ x.2 ∧ x.2 < a.2 ∧ side a b x < 0 then -1 else 0

/-- The edges of a closed polyline with given vertices. -/
def closedEdges (l : List (K × K)) : List ((K × K) × (K × K)) := l.zip (l.tail ++ l.take 1)

/-- Winding number of a closed polyline about a point off it: one for each climb counterclockwise. -/
def winding (l : List (K × K)) (x : K × K) : ℤ := ((closedEdges l).map fun e => climb e.1 e.2 x).sum

/-- How often the path from `p` to `q` crosses the leftward ray from `x` upwards. -/
def pass (p q x : K × K) : ℤ :=
  if p.2 < x.2 ∧ x.2 ≤ q.2 ∧ side p q x < 0 then 1
  else if q.2 < x.2 ∧ x.2 ≤ p.2 ∧ 0 < side p q x then -1 else 0

theorem sum_closed (f : K × K → ℤ) {l : List ((K × K) × (K × K))} (hl : ClosedWalk l) :
    (l.map fun e => f e.2 - f e.1).sum = 0 := by
  have key : ∀ (l : List ((K × K) × (K × K))) (e : (K × K) × (K × K)), Walk (e :: l) → ∀ z ∈ (e :: l).getLast?,
      ((e :: l).map fun e => f e.2 - f e.1).sum = f z.2 - f e.1 := by
    intro l
    induction l with
    | nil =>
      intro e _ z hz
      rw [List.getLast?_singleton] at hz
      cases hz
      simp
    | cons g l ih =>
      intro e hw z hz
      rw [List.getLast?_cons_cons] at hz
      rw [List.map_cons, List.sum_cons, ih g hw.2 z hz, hw.1]
      ring
  cases l with
  | nil => rfl
  | cons e l =>
    obtain ⟨z, hz⟩ : ∃ z, (e :: l).getLast? = some z := ⟨_, List.getLast?_eq_getLast_of_ne_nil (List.cons_ne_nil _ _)⟩
    rw [key l e hl.1 z hz, hl.2 e rfl z hz, sub_self]

/-- Vertices of a walk, closed by the first of them. -/
theorem closedEdges_walk {l : List ((K × K) × (K × K))} (hl : ClosedWalk l) :
    (closedEdges (l.map Prod.snd)).Perm l := by
  have key : ∀ (l : List ((K × K) × (K × K))) (e : (K × K) × (K × K)) (z : K × K), Walk (e :: l) → ∀ y ∈ (e :: l).getLast?,
      ((e :: l).map Prod.snd).zip (l.map Prod.snd ++ [z]) = l ++ [(y.2, z)] := by
    intro l
    induction l with
    | nil =>
      intro e z _ y hy
      rw [List.getLast?_singleton] at hy
      cases hy
      rfl
    | cons f l ih =>
      intro e z hw y hy
      rw [List.getLast?_cons_cons] at hy
      rw [List.map_cons, List.map_cons (l := l), List.cons_append, List.zip_cons_cons, ← List.map_cons, ih f z hw.2 y hy, hw.1]
      rfl
  cases l with
  | nil => exact List.Perm.refl _
  | cons e l =>
    obtain ⟨z, hz⟩ : ∃ z, (e :: l).getLast? = some z := ⟨_, List.getLast?_eq_getLast_of_ne_nil (List.cons_ne_nil _ _)⟩
    have h1 := key l e e.2 hl.1 z hz
    have h2 : closedEdges ((e :: l).map Prod.snd) = ((e :: l).map Prod.snd).zip (l.map Prod.snd ++ [e.2]) := rfl
    rw [h2, h1, hl.2 e rfl z hz]
    exact List.perm_append_singleton _ _

variable [IsStrictOrderedRing K]

theorem climb_swap (a b x : K × K) : climb b a x = - climb a b x := by
  unfold climb
  rw [side_swap a b x]
  simp only [neg_lt_zero, neg_pos]
  by_cases h1 : a.2 ≤ x.2 ∧ x.2 < b.2 ∧ 0 < side a b x
  · have h2 : ¬ (b.2 ≤ x.2 ∧ x.2 < a.2 ∧ side a b x < 0) := fun h => absurd h1.2.1 (not_lt.2 h.1)
    rw [if_pos h1, if_neg h2, if_pos h1]
  · rw [if_neg h1, if_neg h1]
    by_cases h2 : b.2 ≤ x.2 ∧ x.2 < a.2 ∧ side a b x < 0
    · rw [if_pos h2, if_pos h2]; rfl
    · rw [if_neg h2, if_neg h2]; rfl

theorem pass_swap (p q x : K × K) : pass q p x = - pass p q x := by
  unfold pass
  rw [side_swap p q x]
  simp only [neg_lt_zero, neg_pos]
  by_cases h1 : p.2 < x.2 ∧ x.2 ≤ q.2 ∧ side p q x < 0
  · have h2 : ¬ (q.2 < x.2 ∧ x.2 ≤ p.2 ∧ 0 < side p q x) := fun h => absurd h1.2.1 (not_le.2 h.1)
    rw [if_pos h1, if_neg h2, if_pos h1]
  · rw [if_neg h1, if_neg h1]
    by_cases h2 : q.2 < x.2 ∧ x.2 ≤ p.2 ∧ 0 < side p q x
    · rw [if_pos h2, if_pos h2]; rfl
    · rw [if_neg h2, if_neg h2]; rfl

omit [IsStrictOrderedRing K] in
theorem climb_up {a b : K × K} (hab : a.2 ≤ b.2) (x : K × K) :
    climb a b x = if a.2 ≤ x.2 ∧ x.2 < b.2 ∧ 0 < side a b x then 1 else 0 := by
  unfold climb
  rw [if_neg (c := b.2 ≤ x.2 ∧ x.2 < a.2 ∧ side a b x < 0)]
  exact fun h => absurd (lt_of_le_of_lt h.1 h.2.1) (not_lt.2 hab)

omit [IsStrictOrderedRing K] in
theorem pass_up {p q : K × K} (hpq : p.2 ≤ q.2) (x : K × K) :
    pass p q x = if p.2 < x.2 ∧ x.2 ≤ q.2 ∧ side p q x < 0 then 1 else 0 := by
  unfold pass
  rw [if_neg (c := q.2 < x.2 ∧ x.2 ≤ p.2 ∧ 0 < side p q x)]
  exact fun h => absurd (lt_of_lt_of_le h.1 h.2.1) (not_lt.2 hpq)

/-- For a path apart from an edge, the change of the crossings along the path is the change of `pass` along the edge. -/
theorem climb_apart {a b p q : K × K} (h : Apart a b p q) : climb a b p - climb a b q = pass p q b - pass p q a := by
  wlog hab : a.2 ≤ b.2 generalizing a b with H
  · have := H h.swapL (not_le.1 hab).le
    rw [climb_swap a b, climb_swap a b] at this
    linarith
  wlog hpq : p.2 ≤ q.2 generalizing p q with H
  · have := H h.swapR (not_le.1 hpq).le
    rw [pass_swap p q, pass_swap p q] at this
    linarith
  rw [climb_up hab, climb_up hab, pass_up hpq, pass_up hpq]
  rcases lt_or_ge p.2 a.2 with pa | pa
  · have pb := lt_of_lt_of_le pa hab
    rcases lt_or_ge q.2 b.2 with qb | qb
    · rcases lt_or_ge q.2 a.2 with qa | qa
      · simp only [not_le.2 pa, not_le.2 qa, not_le.2 qb, false_and, and_false, if_false, sub_self]
      · have := bottom_right h pa qa qb
        simp only [not_le.2 pa, pa, qa, qb, not_le.2 qb, true_and, false_and, and_false, this, if_false]
    · have qa := le_trans hab qb
      have hp := lt_of_lt_of_le pa qa
      have na : ¬ OnSeg p q a := h a (OnSeg.left a b)
      have nb : ¬ OnSeg p q b := h b (OnSeg.right a b)
      have := same_side_iff hp ⟨pa.le, qa⟩ ⟨pb.le, qb⟩ h.symm
      simp only [side_neg_iff hp pa.le qa na, side_neg_iff hp pb.le qb nb, this]
      simp only [not_le.2 pa, not_lt.2 qb, pa, pb, qa, qb, false_and, and_false, true_and, if_false, sub_self]
  · have qa := le_trans pa hpq
    rcases lt_or_ge q.2 b.2 with qb | qb
    · have pb := lt_of_le_of_lt hpq qb
      have := same_side_iff (lt_of_le_of_lt pa pb) ⟨pa, pb.le⟩ ⟨qa, qb.le⟩ h
      simp only [pa, pb, qa, qb, not_lt.2 pa, not_le.2 qb, false_and, and_false, this, if_false, sub_self]
    · rcases lt_or_ge p.2 b.2 with pb | pb
      · have := top_right h pa pb qb
        simp only [pa, pb, qb, not_lt.2 pa, not_lt.2 qb, true_and, false_and, and_false, this, if_false]
      · simp only [not_lt.2 pb, not_lt.2 qb, not_lt.2 pa, false_and, and_false, if_false]

/-- For a path across an edge there is one more, from the left to the right. -/
theorem climb_cross {a b p q : K × K} (h : Crosses a b p q) :
    climb a b p - climb a b q = pass p q b - pass p q a + if 0 < side a b p then 1 else -1 := by
  wlog hab : a.2 ≤ b.2 generalizing a b with H
  · have := H h.swapL (not_le.1 hab).le
    rw [climb_swap a b, climb_swap a b, side_swap a b] at this
    rcases cross_signs h with hs | hs
    · rw [if_pos hs.1]
      rw [if_neg (by rw [neg_pos]; exact not_lt.2 hs.1.le)] at this
      linarith
    · rw [if_neg (not_lt.2 hs.1.le)]
      rw [if_pos (by rw [neg_pos]; exact hs.1)] at this
      linarith
  wlog hpq : p.2 ≤ q.2 generalizing p q with H
  · have := H h.swapR (not_le.1 hpq).le
    rw [pass_swap p q, pass_swap p q] at this
    rcases cross_signs h with hs | hs
    · rw [if_pos hs.1]
      rw [if_neg (not_lt.2 hs.2.1.le)] at this
      linarith
    · rw [if_neg (not_lt.2 hs.1.le)]
      rw [if_pos hs.2.1] at this
      linarith
  rw [climb_up hab, climb_up hab, pass_up hpq, pass_up hpq]
  obtain ⟨pb, aq⟩ := cross_heights h hab hpq
  rcases cross_signs h with ⟨h1, h2, h3, h4⟩ | ⟨h1, h2, h3, h4⟩
  · simp only [h1, h3, not_lt.2 h2.le, not_lt.2 h4.le, pb, aq, and_true, and_false, if_true, if_false]
    rcases lt_or_ge p.2 a.2 with h | h
    · simp [h, not_le.2 h]
    · simp [h, not_lt.2 h]
  · simp only [h2, h4, not_lt.2 h1.le, not_lt.2 h3.le, pb, aq, and_true, true_and, and_false, if_true, if_false]
    rcases lt_or_ge q.2 b.2 with h | h
    · simp [h, not_le.2 h]
    · simp [h, not_lt.2 h]

theorem climb_beyond {a b x : K × K} (ha : a.1 < x.1) (hb : b.1 < x.1) : climb a b x = 0 := by
  unfold climb
  rw [if_neg, if_neg]
  · rintro ⟨h1, h2, h3⟩
    unfold side at h3
    have e1 := mul_nonneg (sub_nonneg.2 h1) (sub_nonneg.2 ha.le)
    have e2 := mul_pos (sub_pos.2 h2) (sub_pos.2 hb)
    linarith [e1, e2]
  · rintro ⟨h1, h2, h3⟩
    unfold side at h3
    have e1 := mul_nonneg (sub_nonneg.2 h1) (sub_nonneg.2 hb.le)
    have e2 := mul_pos (sub_pos.2 h2) (sub_pos.2 ha)
    linarith [e1, e2]

end
end Verif.Plane

namespace Verif.Decomp
open Verif.Plane

section
variable {K : Type} [Field K] [LinearOrder K]

/-- `Polygon.vertices` (polygon.py:35-43). -/
def polyVertices (s : St K) (q : Id) : Except Err (List Id) := do
  if s.parent (s.outer q) = none then .ok []
  else
    let l ← wireAll s (s.outer q)
    .ok (l.map s.vtx)

/-- Crossings of the sides of the wire `w` with the ray from `x`, upward ones less downward ones. -/
def wind (s : St K) (x : K × K) (w : Id) : ℤ :=
  ∑ d ∈ darts s, if s.wire d = some w then climb (org s d) (dst s d) x else 0

variable [IsStrictOrderedRing K]

theorem wind_sum (f : K × K → ℤ) {s : St K} (hL : Links s ∅ ∅) (hW : Wires s) (w : Id) :
    (∑ d ∈ darts s, if s.wire d = some w then f (dst s d) - f (org s d) else 0) = 0 := by
  by_cases hl : ∃ d : HE, d.1 ∈ s.sid.live ∧ s.wire d = some w
  · obtain ⟨d, hd, hdw⟩ := hl
    obtain ⟨w', h1, hw, h0⟩ := hW.lab d hd
    rw [hdw] at h1
    cases h1
    obtain ⟨l, _, h2, h3, h4⟩ := wire_walk_of hL hW hw h0
    have := sum_closed f h4
    rw [List.map_map, ← List.sum_toFinset _ h2] at this
    rw [← Finset.sum_filter]
    refine Eq.trans (Finset.sum_congr ?_ fun d _ => rfl) this
    ext d
    rw [Finset.mem_filter, mem_darts, List.mem_toFinset, h3]
  · exact Finset.sum_eq_zero fun d hd => if_neg fun hh => hl ⟨d, mem_darts.1 hd, hh⟩

theorem wind_path {s : St K} (hL : Links s ∅ ∅) (hW : Wires s) {x y : K × K} (hc : Clear s x y) : wind s x = wind s y := by
  funext w
  have h := wind_sum (pass x y) hL hW w
  unfold wind
  rw [← sub_eq_zero, ← Finset.sum_sub_distrib]
  refine Eq.trans ?_ h
  refine Finset.sum_congr rfl fun d hd => ?_
  split_ifs
  · exact climb_apart ((edge_apart_iff s x y d).2 (hc d.1 (mem_darts.1 hd)))
  · rfl

theorem wind_cross {s : St K} (hL : Links s ∅ ∅) (hW : Wires s) {x y : K × K} {d : HE} (hd : d.1 ∈ s.sid.live)
    (hc : ∀ e ∈ s.sid.live, e ≠ d.1 → Apart (s.xy (s.vtx (e, false))) (s.xy (s.vtx (e, true))) x y) (hx : SideCrosses s x y d)
    (hl : 0 < side (org s d) (dst s d) x) (w : Id) :
    wind s x w = wind s y w + (if s.wire d = some w then 1 else 0) - (if s.wire (flip d) = some w then 1 else 0) := by
  have h := wind_sum (pass x y) hL hW w
  have hfl : flip d ≠ d := by
    obtain ⟨e, v⟩ := d
    cases v <;> simp [flip]
  have key : (∑ k ∈ darts s, ((if s.wire k = some w then climb (org s k) (dst s k) x else 0) -
      (if s.wire k = some w then climb (org s k) (dst s k) y else 0) -
      (if s.wire k = some w then pass x y (dst s k) - pass x y (org s k) else 0))) =
      (if s.wire d = some w then 1 else 0) + (if s.wire (flip d) = some w then -1 else 0) := by
    rw [Finset.sum_eq_add d (flip d) hfl.symm]
    · have h1 := climb_cross ((edge_crosses_iff s x y d).2 hx)
      have h2 := climb_cross ((edge_crosses_iff s x y (flip d)).2 hx)
      have e1 : edgeOf s d = (org s d, dst s d) := rfl
      have e2 : edgeOf s (flip d) = (org s (flip d), dst s (flip d)) := rfl
      rw [e1, if_pos hl] at h1
      rw [e2, if_neg (by rw [side_flip, neg_pos]; exact not_lt.2 hl.le)] at h2
      simp only at h1 h2
      congr 1
      · split_ifs
        · linarith
        · rfl
      · split_ifs
        · linarith
        · rfl
    · rintro k hk ⟨n1, n2⟩
      have hne : k.1 ≠ d.1 := by
        intro hh
        obtain ⟨e, v⟩ := d
        obtain ⟨e', v'⟩ := k
        cases hh
        cases v <;> cases v' <;> simp [flip] at n1 n2
      have := climb_apart ((edge_apart_iff s x y k).2 (hc k.1 (mem_darts.1 hk) hne))
      have e1 : edgeOf s k = (org s k, dst s k) := rfl
      rw [e1] at this
      simp only at this
      split_ifs
      · linarith
      · rfl
    · exact fun hh => absurd (mem_darts.2 hd) hh
    · exact fun hh => absurd (mem_darts.2 (show (flip d).1 ∈ s.sid.live from hd)) hh
  rw [Finset.sum_sub_distrib, Finset.sum_sub_distrib, h] at key
  have k2 : wind s x w - wind s y w - 0 = (if s.wire d = some w then 1 else 0) + (if s.wire (flip d) = some w then -1 else 0) := key
  split_ifs at k2 ⊢ <;> linarith

theorem wind_beyond {s : St K} {x : K × K} (hx : ∀ d : HE, d.1 ∈ s.sid.live → (s.xy (s.vtx d)).1 < x.1) (w : Id) : wind s x w = 0 := by
  refine Finset.sum_eq_zero fun d hd => ?_
  have h1 := mem_darts.1 hd
  split_ifs
  · exact climb_beyond (hx (flip d) h1) (hx d h1)
  · rfl

theorem wind_sees {s : St K} (hL : Links s ∅ ∅) (hW : Wires s) (hP : Planar s) {d : HE} {x y : K × K} (hx : Sees s d x)
    (hy : Sees s (flip d) y) (w : Id) :
    wind s x w = wind s y w + (if s.wire d = some w then 1 else 0) - (if s.wire (flip d) = some w then 1 else 0) := by
  obtain ⟨x', y', h1, h2, h3, h4, h5⟩ := sees_through (F := wind s) (fun _ _ hc => wind_path hL hW hc) hL hP hx hy
  rw [← h1, ← h2]
  exact wind_cross hL hW hx.live h3 h4 h5 w

variable {g : Geom K} {s : St K}

/-- The outer wire of a polygon runs once counterclockwise around the points in it, other wires once clockwise. -/
theorem wind_eq (hT : Tiled g s) {w q : Id} (hw : w ∈ s.wid.live) (h0 : w ≠ 0) (hq : s.wpoly w = some q) {x : K × K} (hx : Off s x) :
    wind s x w = if cnt s x w = 1 then (if s.outer q = w then 1 else -1) else 0 := by
  have hD := hT.drawn
  have hL := hD.nested.inv.links
  have hW := hD.nested.wires
  have hN := hD.nested.nest
  have hin : ∀ d z, Sees s d z → s.wire d = some w → (cnt s z w = 1 ↔ s.outer q = w) := by
    intro d z hz hd
    have he := hT.good w d z q hz hd hq w hw
    obtain ⟨q', k1, k2, k3⟩ := hN.pols w hw
    rw [hq] at k2
    cases k2
    constructor
    · intro h1
      rcases k3 with k3 | k3
      · exact k3
      · exact absurd (he.1 (Or.inr h1)) ((hN.chain w hw).not_anc hN.p0 k3)
    · intro h1
      exact (he.2 (h1 ▸ .refl)).resolve_left h0
  refine ray_ind (P := fun x => wind s x w = if cnt s x w = 1 then (if s.outer q = w then 1 else -1) else 0) hL hD.planar
    (fun z hz => ?_) (fun y z hc hz => ?_) (fun d y z hy hz hP => ?_) x hx
  · rw [wind_beyond hz, cnt_beyond hz]; rfl
  · rw [wind_path hL hW hc, cnt_path hL hW hc]
    exact hz
  · rw [wind_sees hL hW hD.planar hy hz w, hP, sees_cross hL hW hD.planar hy hz w]
    have a1 := hin d y hy
    have a2 := hin (flip d) z hz
    have a3 := sees_cross hL hW hD.planar hy hz w
    by_cases b1 : s.wire d = some w
    · by_cases b2 : s.wire (flip d) = some w
      · simp only [if_pos b1, if_pos b2]
        have : cnt s z w + 1 + 1 = cnt s z w := by
          rcases zmod2 (cnt s z w) with k | k <;> rw [k] <;> decide
        rw [this]
        ring
      · have c1 := a1 b1
        rw [a3, if_pos b1, if_neg b2] at c1
        simp only [if_pos b1, if_neg b2]
        by_cases ho : s.outer q = w
        · have := c1.2 ho
          rw [if_pos this, if_pos ho]
          rcases zmod2 (cnt s z w) with k | k
          · rw [k]; rfl
          · rw [k] at this; exact absurd this (by decide)
        · have : ¬ _ := fun h => ho (c1.1 h)
          rw [if_neg this, if_neg ho]
          rcases zmod2 (cnt s z w) with k | k
          · rw [k] at this; exact absurd (by decide) this
          · rw [k]; rfl
    · by_cases b2 : s.wire (flip d) = some w
      · have c1 := a2 b2
        simp only [if_neg b1, if_pos b2]
        by_cases ho : s.outer q = w
        · have := c1.2 ho
          rw [if_pos this, if_pos ho, this]
          rfl
        · have : ¬ _ := fun h => ho (c1.1 h)
          rw [if_neg this, if_neg ho]
          rcases zmod2 (cnt s z w) with k | k
          · rw [k]; rfl
          · exact absurd k this
      · simp only [if_neg b1, if_neg b2, add_zero, sub_zero]

/-- The closed polyline of the sides of a wire, as listed by `Wire.segments`. -/
theorem winding_wire (hT : Tiled g s) {w q : Id} (hw : w ∈ s.wid.live) (h0 : w ≠ 0) (hq : s.wpoly w = some q) {x : K × K} (hx : Off s x) :
    ∃ l b, wireAll s w = .ok l ∧ containsPoint s w x = .ok b ∧
      winding (l.map fun d => s.xy (s.vtx d)) x = if b = true then (if s.outer q = w then 1 else -1) else 0 := by
  have hL := hT.drawn.nested.inv.links
  have hW := hT.drawn.nested.wires
  obtain ⟨l, h1, h2, h3, h4⟩ := wire_walk_of hL hW hw h0
  refine ⟨l, _, h1, contains_cnt hL hW hw h0 x, ?_⟩
  have h5 : wind s x w = winding (l.map fun d => s.xy (s.vtx d)) x := by
    unfold winding
    have : (l.map fun d => s.xy (s.vtx d)) = (l.map (edgeOf s)).map Prod.snd := by rw [List.map_map]; rfl
    rw [this, ((closedEdges_walk h4).map _).sum_eq, List.map_map, ← List.sum_toFinset _ h2]
    unfold wind
    rw [← Finset.sum_filter]
    refine Finset.sum_congr ?_ fun d _ => rfl
    ext d
    rw [Finset.mem_filter, mem_darts, List.mem_toFinset, h3]
  rw [← h5, wind_eq hT hw h0 hq hx]
  simp only [decide_eq_true_eq]

/-- `Polygon.vertices` are listed counterclockwise: the closed polyline winds once around every point in the outer wire of the
polygon, thus around every point in the polygon, and not around the other points. The outer polygon has no vertices. -/
theorem polygon_vertices_ccw (hg : ArgOk g) (h : Drawing g s) {q : Id} (hq : q ∈ s.qid.live) {x : K × K} (hx : Off s x) :
    ∃ l, polyVertices s q = .ok l ∧ (∀ p ∈ l, p ∈ s.pid.live) ∧ (q = 0 → l = []) ∧
      (q ≠ 0 → ∃ b, containsPoint s (s.outer q) x = .ok b ∧ winding (l.map s.xy) x = (if b = true then 1 else 0)) ∧
      (q ≠ 0 → polyContains s q x = .ok true → winding (l.map s.xy) x = 1) := by
  have hT := h.tiled hg
  have hN := hT.drawn.nested.nest
  obtain ⟨ho, hp⟩ := hN.outs q hq
  by_cases h0 : q = 0
  · subst h0
    refine ⟨[], ?_, by simp, by simp, fun hh => absurd rfl hh, fun hh => absurd rfl hh⟩
    unfold polyVertices
    rw [hN.o0, if_pos hN.p0]
  · have hn := hN.out_ne hq h0
    obtain ⟨l, b, h1, h2, h3⟩ := winding_wire hT ho hn hp hx
    have h4 : winding ((l.map s.vtx).map s.xy) x = if b = true then 1 else 0 := by
      rw [List.map_map]
      rw [if_pos rfl] at h3
      exact h3
    refine ⟨l.map s.vtx, ?_, fun p hp => ?_, fun hh => absurd hh h0, fun _ => ⟨b, h2, h4⟩, fun _ hc => ?_⟩
    · obtain ⟨p', k1, _⟩ := hN.up _ ho hn
      unfold polyVertices
      rw [if_neg (by rw [k1]; simp), h1]
      rfl
    · obtain ⟨d, hd, rfl⟩ := List.mem_map.1 hp
      obtain ⟨l', e1, _, e3, _⟩ := wire_walk_of hT.drawn.nested.inv.links hT.drawn.nested.wires ho hn
      rw [h1] at e1
      cases e1
      exact hT.drawn.nested.inv.links.vlive d ((e3 d).1 hd).1
    · rw [h4]
      unfold polyContains at hc
      rw [h2] at hc
      cases b
      · simp [bind, Except.bind] at hc
      · rfl

/-- The wires of a polygon inside its outer wire run clockwise around the points in them. -/
theorem hole_clockwise (hg : ArgOk g) (h : Drawing g s) {w q : Id} (hw : w ∈ s.wid.live) (h0 : w ≠ 0) (hq : s.wpoly w = some q)
    (hn : s.outer q ≠ w) {x : K × K} (hx : Off s x) :
    ∃ l b, wireAll s w = .ok l ∧ containsPoint s w x = .ok b ∧
      winding (l.map fun d => s.xy (s.vtx d)) x = if b = true then -1 else 0 := by
  obtain ⟨l, b, h1, h2, h3⟩ := winding_wire (h.tiled hg) hw h0 hq hx
  rw [if_neg hn] at h3
  exact ⟨l, b, h1, h2, h3⟩

end
end Verif.Decomp
