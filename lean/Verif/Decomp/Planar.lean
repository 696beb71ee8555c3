import Verif.Decomp.Vec
import Mathlib.Tactic.Linarith
import Mathlib.Tactic.LinearCombination
import Mathlib.Tactic.Ring

/-! Drawings in which segments meet only in their ends. -/

namespace Verif.Decomp

variable {K : Type} [Field K] [LinearOrder K]

/-- The point of the straight line from `o` to `x` with the parameter `u`. -/
def between (o x : K × K) (u : K) : K × K := (o.1 + u * (x.1 - o.1), o.2 + u * (x.2 - o.2))

/-- The point of the segment `e` with the parameter `u`, from the coordinates of its ends. -/
def segPt (s : St K) (e : Id) (u : K) : K × K := between (s.xy (s.vtx (e, false))) (s.xy (s.vtx (e, true))) u

/-- Different points have different coordinates, a point is on a segment only if it is an end of it, and two segments meet
only in a common end. -/
structure Planar (s : St K) : Prop where
  pts : ∀ p ∈ s.pid.live, ∀ q ∈ s.pid.live, s.xy p = s.xy q → p = q
  on : ∀ p ∈ s.pid.live, ∀ e ∈ s.sid.live, ∀ u, 0 ≤ u → u ≤ 1 → s.xy p = segPt s e u → ∃ v, s.vtx (e, v) = p
  meet : ∀ e ∈ s.sid.live, ∀ e' ∈ s.sid.live, e ≠ e' → ∀ u u', 0 ≤ u → u ≤ 1 → 0 ≤ u' → u' ≤ 1 →
    segPt s e u = segPt s e' u' → ∃ v v', s.vtx (e, v) = s.vtx (e', v') ∧ s.xy (s.vtx (e, v)) = segPt s e u

omit [LinearOrder K] in
theorem between_zero (o x : K × K) : between o x 0 = o := by simp [between]

omit [LinearOrder K] in
theorem between_one (o x : K × K) : between o x 1 = x := by simp [between]

omit [LinearOrder K] in
theorem between_inj {o x : K × K} (h : o ≠ x) {u u' : K} (hu : between o x u = between o x u') : u = u' := by
  simp only [between, Prod.mk.injEq] at hu
  by_contra hne
  apply h
  have h1 : (u - u') * (x.1 - o.1) = 0 := by linear_combination hu.1
  have h2 : (u - u') * (x.2 - o.2) = 0 := by linear_combination hu.2
  have hd : u - u' ≠ 0 := sub_ne_zero.2 hne
  have e1 := (mul_eq_zero.1 h1).resolve_left hd
  have e2 := (mul_eq_zero.1 h2).resolve_left hd
  exact Prod.ext (by linear_combination -e1) (by linear_combination -e2)

omit [LinearOrder K] in
/-- A part of a straight line. -/
theorem between_part (o x : K × K) (s t u : K) : between (between o x s) (between o x t) u = between o x (s + u * (t - s)) := by
  simp only [between, Prod.mk.injEq]
  constructor <;> ring

omit [LinearOrder K] in
theorem segPt_end (s : St K) (e : Id) (v : Bool) : segPt s e (if v then 1 else 0) = s.xy (s.vtx (e, v)) := by
  cases v
  · exact between_zero _ _
  · exact between_one _ _

omit [LinearOrder K] in
theorem segPt_congr {s s' : St K} {e : Id} (hv : ∀ v, s'.vtx (e, v) = s.vtx (e, v)) (hx : ∀ v, s'.xy (s.vtx (e, v)) = s.xy (s.vtx (e, v))) :
    segPt s' e = segPt s e := by
  funext u
  unfold segPt
  rw [hv, hv, hx, hx]

/-- It is enough that two segments meet only in points of the drawing. -/
theorem Planar.of {s : St K} (pts : ∀ p ∈ s.pid.live, ∀ q ∈ s.pid.live, s.xy p = s.xy q → p = q)
    (on : ∀ p ∈ s.pid.live, ∀ e ∈ s.sid.live, ∀ u, 0 ≤ u → u ≤ 1 → s.xy p = segPt s e u → ∃ v, s.vtx (e, v) = p)
    (meet : ∀ e ∈ s.sid.live, ∀ e' ∈ s.sid.live, e ≠ e' → ∀ u u', 0 ≤ u → u ≤ 1 → 0 ≤ u' → u' ≤ 1 →
      segPt s e u = segPt s e' u' → ∃ p ∈ s.pid.live, s.xy p = segPt s e u) : Planar s where
  pts := pts
  on := on
  meet e he e' he' hne u u' h0 h1 h0' h1' h := by
    obtain ⟨p, hp, hx⟩ := meet e he e' he' hne u u' h0 h1 h0' h1' h
    obtain ⟨v, hv⟩ := on p hp e he u h0 h1 hx
    obtain ⟨v', hv'⟩ := on p hp e' he' u' h0' h1' (hx.trans h)
    exact ⟨v, v', hv.trans hv'.symm, by rw [hv]; exact hx⟩

variable [IsStrictOrderedRing K]

omit [IsStrictOrderedRing K] in
/-- The ends of a segment have different coordinates. -/
theorem Planar.ends_ne {s : St K} (h : Planar s) (hL : Links s ∅ ∅) {e : Id} (he : e ∈ s.sid.live) :
    s.xy (s.vtx (e, false)) ≠ s.xy (s.vtx (e, true)) := fun hh =>
  hL.vne e he (h.pts _ (hL.vlive (e, false) he) _ (hL.vlive (e, true) he) hh)

omit [IsStrictOrderedRing K] in
theorem init_planar : Planar (init : St K) where
  pts p hp := by simp [init] at hp
  on p hp := by simp [init] at hp
  meet e he := by simp [init] at he

omit [IsStrictOrderedRing K] in
/-- Fewer points and segments. -/
theorem Planar.less {s s' : St K} (h : Planar s) (hp : ∀ p ∈ s'.pid.live, p ∈ s.pid.live) (he : ∀ e ∈ s'.sid.live, e ∈ s.sid.live)
    (hv : s'.vtx = s.vtx) (hx : s'.xy = s.xy) : Planar s' := by
  have hs : ∀ e, segPt s' e = segPt s e := fun e => segPt_congr (fun v => by rw [hv]) (fun v => by rw [hx])
  constructor
  · intro p hp1 q hq hh
    rw [hx] at hh
    exact h.pts p (hp p hp1) q (hp q hq) hh
  · intro p hp1 e he1 u h0 h1 hh
    rw [hx, hs] at hh
    rw [hv]
    exact h.on p (hp p hp1) e (he e he1) u h0 h1 hh
  · intro e he1 e' he' hne u u' h0 h1 h0' h1' hh
    rw [hs, hs] at hh
    rw [hv, hx, hs]
    exact h.meet e (he e he1) e' (he e' he') hne u u' h0 h1 h0' h1' hh

omit [IsStrictOrderedRing K] in
/-- A new point away from points and segments. -/
theorem Planar.point {s s' : St K} (h : Planar s) (hL : Links s ∅ ∅) {p : Id} (hp : ∀ q, q ∈ s'.pid.live ↔ q = p ∨ q ∈ s.pid.live)
    (hx : ∀ q ∈ s.pid.live, s'.xy q = s.xy q) (hs : s'.sid = s.sid) (hv : s'.vtx = s.vtx)
    (h1 : ∀ q ∈ s.pid.live, s.xy q ≠ s'.xy p) (h2 : ∀ e ∈ s.sid.live, ∀ u, 0 ≤ u → u ≤ 1 → s'.xy p ≠ segPt s e u) : Planar s' := by
  have hs' : ∀ e ∈ s.sid.live, segPt s' e = segPt s e := fun e he =>
    segPt_congr (fun v => by rw [hv]) (fun v => hx _ (hL.vlive (e, v) he))
  refine .of ?_ ?_ ?_
  · intro q hq q' hq' hh
    rcases (hp q).1 hq with rfl | hq1
    · rcases (hp q').1 hq' with rfl | hq2
      · rfl
      · rw [hx q' hq2] at hh
        exact absurd hh.symm (h1 q' hq2)
    · rcases (hp q').1 hq' with rfl | hq2
      · rw [hx q hq1] at hh
        exact absurd hh (h1 q hq1)
      · rw [hx q hq1, hx q' hq2] at hh
        exact h.pts q hq1 q' hq2 hh
  · intro q hq e he u h0 h1' hh
    rw [hs] at he
    rw [hs' e he] at hh
    rw [hv]
    rcases (hp q).1 hq with rfl | hq1
    · exact absurd hh (h2 e he u h0 h1')
    · rw [hx q hq1] at hh
      exact h.on q hq1 e he u h0 h1' hh
  · intro e he e' he' hne u u' h0 h1' h0' h1'' hh
    rw [hs] at he he'
    rw [hs' e he, hs' e' he'] at hh
    obtain ⟨v, v', _, hx'⟩ := h.meet e he e' he' hne u u' h0 h1' h0' h1'' hh
    have hl := hL.vlive (e, v) he
    exact ⟨s.vtx (e, v), (hp _).2 (Or.inr hl), by rw [hx _ hl, hs' e he]; exact hx'⟩

/-- A segment divided in a new point. -/
theorem Planar.split {s s' : St K} (h : Planar s) (hL : Links s ∅ ∅) {e n m : Id} {t : K} (he : e ∈ s.sid.live) (t0 : 0 < t) (t1 : t < 1)
    (hn : n ∉ s.sid.live) (hp : ∀ q, q ∈ s'.pid.live ↔ q = m ∨ q ∈ s.pid.live)
    (hx : ∀ q ∈ s.pid.live, s'.xy q = s.xy q) (hxm : s'.xy m = segPt s e t) (hs : ∀ i, i ∈ s'.sid.live ↔ i = n ∨ i ∈ s.sid.live)
    (ho : ∀ i ∈ s.sid.live, i ≠ e → ∀ v, s'.vtx (i, v) = s.vtx (i, v)) (he0 : s'.vtx (e, false) = s.vtx (e, false))
    (he1 : s'.vtx (e, true) = m) (hn0 : s'.vtx (n, false) = m) (hn1 : s'.vtx (n, true) = s.vtx (e, true)) : Planar s' := by
  have hne := h.ends_ne hL he
  have hxv : ∀ e ∈ s.sid.live, ∀ v, s'.xy (s.vtx (e, v)) = s.xy (s.vtx (e, v)) := fun e he v => hx _ (hL.vlive (e, v) he)
  have hinj : ∀ {u u' : K}, segPt s e u = segPt s e u' → u = u' := fun hh => between_inj hne hh
  -- the segment and the range of parameters of which each segment is a part
  have hpart : ∀ i ∈ s'.sid.live, ∃ j ∈ s.sid.live, ∃ α β : K, 0 ≤ α ∧ α ≤ 1 ∧ 0 ≤ β ∧ β ≤ 1 ∧ (∀ u, segPt s' i u = segPt s j (α + u * (β - α))) ∧
      ((j ≠ e ∧ i = j ∧ α = 0 ∧ β = 1) ∨ (j = e ∧ i = e ∧ α = 0 ∧ β = t) ∨ (j = e ∧ i = n ∧ α = t ∧ β = 1)) := by
    intro i hi
    rcases (hs i).1 hi with rfl | hi1
    · refine ⟨e, he, t, 1, t0.le, t1.le, zero_le_one, le_rfl, fun u => ?_, Or.inr (Or.inr ⟨rfl, rfl, rfl, rfl⟩)⟩
      unfold segPt
      rw [hn0, hn1, hxm, hxv e he]
      have := between_part (s.xy (s.vtx (e, false))) (s.xy (s.vtx (e, true))) t 1 u
      rw [between_one] at this
      exact this
    · by_cases hie : i = e
      · subst hie
        refine ⟨i, he, 0, t, le_rfl, zero_le_one, t0.le, t1.le, fun u => ?_, Or.inr (Or.inl ⟨rfl, rfl, rfl, rfl⟩)⟩
        have := between_part (s.xy (s.vtx (i, false))) (s.xy (s.vtx (i, true))) 0 t u
        rw [between_zero] at this
        unfold segPt
        rw [he0, he1, hxm, hxv i he]
        exact this
      · refine ⟨i, hi1, 0, 1, le_rfl, zero_le_one, zero_le_one, le_rfl, fun u => ?_, Or.inl ⟨hie, rfl, rfl, rfl⟩⟩
        rw [segPt_congr (ho i hi1 hie) (hxv i hi1)]
        congr 1
        ring
  have hrange : ∀ {α β u : K}, 0 ≤ α → α ≤ 1 → 0 ≤ β → β ≤ 1 → 0 ≤ u → u ≤ 1 → 0 ≤ α + u * (β - α) ∧ α + u * (β - α) ≤ 1 := by
    intro α β u a0 a1 b0 b1 u0 u1
    have p1 := mul_nonneg u0 b0
    have p2 := mul_nonneg (sub_nonneg.2 u1) a0
    have p3 := mul_nonneg u0 (sub_nonneg.2 b1)
    have p4 := mul_nonneg (sub_nonneg.2 u1) (sub_nonneg.2 a1)
    constructor
    · linarith
    · linarith
  -- no point of the drawing is in the place of the new one
  have hfar : ∀ q ∈ s.pid.live, s.xy q ≠ segPt s e t := by
    intro q hq hh
    obtain ⟨v, hv⟩ := h.on q hq e he t t0.le t1.le hh
    rw [← hv, ← segPt_end] at hh
    have := hinj hh
    cases v <;> simp at this <;> linarith
  have hon : ∀ p ∈ s'.pid.live, ∀ i ∈ s'.sid.live, ∀ u, 0 ≤ u → u ≤ 1 → s'.xy p = segPt s' i u → ∃ v, s'.vtx (i, v) = p := by
    intro p hp1 i hi u u0 u1 hh
    obtain ⟨j, hj, α, β, a0, a1, b0, b1, hseg, hcase⟩ := hpart i hi
    obtain ⟨r0, r1⟩ := hrange a0 a1 b0 b1 u0 u1
    rw [hseg] at hh
    rcases (hp p).1 hp1 with rfl | hp2
    · rw [hxm] at hh
      rcases hcase with ⟨c1, c2, c3, c4⟩ | ⟨c1, c2, c3, c4⟩ | ⟨c1, c2, c3, c4⟩
      · obtain ⟨v, v', _, hx'⟩ := h.meet e he j hj (Ne.symm c1) t _ t0.le t1.le r0 r1 hh
        exact absurd hx' (hfar _ (hL.vlive (e, v) he))
      · exact ⟨true, by rw [c2]; exact he1⟩
      · exact ⟨false, by rw [c2]; exact hn0⟩
    · rw [hx p hp2] at hh
      obtain ⟨v, hv⟩ := h.on p hp2 j hj _ r0 r1 hh
      rcases hcase with ⟨c1, c2, c3, c4⟩ | ⟨c1, c2, c3, c4⟩ | ⟨c1, c2, c3, c4⟩
      · exact ⟨v, by rw [c2, ho j hj c1]; exact hv⟩
      · subst c1
        cases v with
        | false => exact ⟨false, by rw [c2, he0]; exact hv⟩
        | true =>
          exfalso
          rw [← hv, ← segPt_end] at hh
          have := hinj hh
          rw [c3, c4] at this
          simp at this
          have : u * t ≤ 1 * t := mul_le_mul_of_nonneg_right u1 t0.le
          linarith
      · subst c1
        cases v with
        | true => exact ⟨true, by rw [c2, hn1]; exact hv⟩
        | false =>
          exfalso
          rw [← hv, ← segPt_end] at hh
          have := hinj hh
          rw [c3, c4] at this
          simp only [Bool.false_eq_true, if_false] at this
          have := mul_nonneg u0 (sub_nonneg.2 t1.le)
          linarith
  refine .of ?_ hon ?_
  · intro q hq q' hq' hh
    rcases (hp q).1 hq with rfl | hq1
    · rcases (hp q').1 hq' with rfl | hq2
      · rfl
      · rw [hx q' hq2, hxm] at hh
        exact absurd hh.symm (hfar q' hq2)
    · rcases (hp q').1 hq' with rfl | hq2
      · rw [hx q hq1, hxm] at hh
        exact absurd hh (hfar q hq1)
      · rw [hx q hq1, hx q' hq2] at hh
        exact h.pts q hq1 q' hq2 hh
  · intro i hi i' hi' hii u u' u0 u1 u0' u1' hh
    obtain ⟨j, hj, α, β, a0, a1, b0, b1, hseg, hcase⟩ := hpart i hi
    obtain ⟨j', hj', α', β', a0', a1', b0', b1', hseg', hcase'⟩ := hpart i' hi'
    obtain ⟨r0, r1⟩ := hrange a0 a1 b0 b1 u0 u1
    obtain ⟨r0', r1'⟩ := hrange a0' a1' b0' b1' u0' u1'
    rw [hseg, hseg'] at hh
    rw [hseg]
    by_cases hjj : j = j'
    · subst hjj
      have key : j = e ∧ ((β = t ∧ α = 0 ∧ α' = t ∧ β' = 1) ∨ (β' = t ∧ α' = 0 ∧ α = t ∧ β = 1)) := by
        rcases hcase with ⟨c1, c2, c3, c4⟩ | ⟨c1, c2, c3, c4⟩ | ⟨c1, c2, c3, c4⟩ <;>
          rcases hcase' with ⟨d1, d2, d3, d4⟩ | ⟨d1, d2, d3, d4⟩ | ⟨d1, d2, d3, d4⟩
        · exact absurd (c2.trans d2.symm) hii
        · exact absurd d1 c1
        · exact absurd d1 c1
        · exact absurd c1 d1
        · exact absurd (c2.trans d2.symm) hii
        · exact ⟨c1, Or.inl ⟨c4, c3, d3, d4⟩⟩
        · exact absurd c1 d1
        · exact ⟨c1, Or.inr ⟨d4, d3, c3, c4⟩⟩
        · exact absurd (c2.trans d2.symm) hii
      obtain ⟨rfl, hk⟩ := key
      have hval := hinj hh
      have hmid : α + u * (β - α) = t := by
        rcases hk with ⟨rfl, rfl, rfl, rfl⟩ | ⟨rfl, rfl, rfl, rfl⟩
        · have q1 := mul_nonneg u0' (sub_nonneg.2 t1.le)
          have q2 := mul_nonneg (sub_nonneg.2 u1) t0.le
          linarith
        · have q1 := mul_nonneg u0 (sub_nonneg.2 t1.le)
          have q2 := mul_nonneg (sub_nonneg.2 u1') t0.le
          linarith
      exact ⟨m, (hp m).2 (Or.inl rfl), by rw [hxm, hmid]⟩
    · obtain ⟨v, v', _, hx'⟩ := h.meet j hj j' hj' hjj _ _ r0 r1 r0' r1' hh
      have hl := hL.vlive (j, v) hj
      exact ⟨s.vtx (j, v), (hp _).2 (Or.inr hl), by rw [hx _ hl]; exact hx'⟩

omit [IsStrictOrderedRing K] in
/-- A new segment that meets the points and the segments only in its ends. -/
theorem Planar.segment {s s' : St K} (h : Planar s) (hL : Links s ∅ ∅) {e a b : Id} (hA : AddSeg s s' e a b)
    (h1 : ∀ p ∈ s.pid.live, ∀ u, 0 ≤ u → u ≤ 1 → s.xy p = between (s.xy a) (s.xy b) u → p = a ∨ p = b)
    (h2 : ∀ i ∈ s.sid.live, ∀ u u', 0 ≤ u → u ≤ 1 → 0 ≤ u' → u' ≤ 1 → segPt s i u = between (s.xy a) (s.xy b) u' →
      ∃ p ∈ s.pid.live, s.xy p = segPt s i u) : Planar s' := by
  have hold : ∀ i ∈ s.sid.live, segPt s' i = segPt s i := fun i hi =>
    segPt_congr (fun v => hA.vo (i, v) (ne_of_mem_of_not_mem hi hA.fresh)) (fun v => by rw [hA.xy])
  have hnew : segPt s' e = between (s.xy a) (s.xy b) := by
    funext u
    rw [segPt, hA.v0, hA.v1, hA.xy]
  refine .of ?_ ?_ ?_
  · intro p hp q hq hh
    rw [hA.pid] at hp hq
    rw [hA.xy] at hh
    exact h.pts p hp q hq hh
  · intro p hp i hi u u0 u1 hh
    rw [hA.pid] at hp
    rw [hA.xy] at hh
    rcases (hA.live i).1 hi with hi | rfl
    · rw [hold i hi] at hh
      obtain ⟨v, hv⟩ := h.on p hp i hi u u0 u1 hh
      exact ⟨v, by rw [hA.vo (i, v) (ne_of_mem_of_not_mem hi hA.fresh)]; exact hv⟩
    · rw [hnew] at hh
      rcases h1 p hp u u0 u1 hh with rfl | rfl
      · exact ⟨false, hA.v0⟩
      · exact ⟨true, hA.v1⟩
  · intro i hi i' hi' hne u u' u0 u1 u0' u1' hh
    rw [hA.pid, hA.xy]
    rcases (hA.live i).1 hi with hi1 | rfl
    · rcases (hA.live i').1 hi' with hi1' | rfl
      · rw [hold i hi1, hold i' hi1'] at hh
        obtain ⟨v, v', _, hx⟩ := h.meet i hi1 i' hi1' hne u u' u0 u1 u0' u1' hh
        rw [hold i hi1]
        exact ⟨_, hL.vlive (i, v) hi1, hx⟩
      · rw [hold i hi1, hnew] at hh
        rw [hold i hi1]
        exact h2 i hi1 u u' u0 u1 u0' u1' hh
    · rcases (hA.live i').1 hi' with hi1' | rfl
      · rw [hnew, hold i' hi1'] at hh
        obtain ⟨p, hp, hx⟩ := h2 i' hi1' u' u u0' u1' u0 u1 hh.symm
        exact ⟨p, hp, by rw [hnew, hh]; exact hx⟩
      · exact absurd rfl hne

end Verif.Decomp
