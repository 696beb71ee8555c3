import Verif.Plane.Tiling
import Verif.Plane.Angle
import Verif.Decomp.NestedProps

/-! Drawings over the rationals: the conditions of `Drawing` are checked along a run. -/

namespace Verif.Decomp
open Verif.Plane

/-- The point is not on the segment. -/
def offSegB (a b x : ℚ × ℚ) : Bool :=
  decide (side a b x ≠ 0) || decide (x.1 < a.1 ∧ x.1 < b.1) || decide (a.1 < x.1 ∧ b.1 < x.1) || decide (x.2 < a.2 ∧ x.2 < b.2) ||
    decide (a.2 < x.2 ∧ b.2 < x.2)

theorem offSegB_ok {a b x : ℚ × ℚ} (h : offSegB a b x = true) : ¬ OnSeg a b x := by
  rintro ⟨t, t0, t1, rfl⟩
  have m : ∀ p q : ℚ, ¬ (p + t * (q - p) < p ∧ p + t * (q - p) < q) ∧ ¬ (p < p + t * (q - p) ∧ q < p + t * (q - p)) := by
    intro p q
    constructor
    · rintro ⟨h1, h2⟩
      rcases le_total p q with k | k
      · linarith [mul_nonneg t0 (sub_nonneg.2 k)]
      · linarith [mul_nonneg (sub_nonneg.2 t1) (sub_nonneg.2 k)]
    · rintro ⟨h1, h2⟩
      rcases le_total p q with k | k
      · linarith [mul_nonneg (sub_nonneg.2 t1) (sub_nonneg.2 k)]
      · linarith [mul_nonneg t0 (sub_nonneg.2 k)]
  simp only [offSegB, Bool.or_eq_true, decide_eq_true_eq] at h
  rcases h with (((h | h) | h) | h) | h
  · exact h (by simp only [side, parametric, dir]; ring)
  · exact (m _ _).1 h
  · exact (m _ _).2 h
  · exact (m _ _).1 h
  · exact (m _ _).2 h

/-- One of the segments is on one side of the other. -/
def apartB (a b p q : ℚ × ℚ) : Bool :=
  decide (0 < side a b p ∧ 0 < side a b q) || decide (side a b p < 0 ∧ side a b q < 0) ||
    decide (0 < side p q a ∧ 0 < side p q b) || decide (side p q a < 0 ∧ side p q b < 0)

theorem apartB_ok {a b p q : ℚ × ℚ} (h : apartB a b p q = true) : Apart a b p q := by
  simp only [apartB, Bool.or_eq_true, decide_eq_true_eq] at h
  rcases h with ((h | h) | h) | h
  · exact sep_apart (sep_of_sides (Or.inl h))
  · exact sep_apart (sep_of_sides (Or.inr h))
  · exact sep_apart (sep_of_sides (Or.inl h)).symm
  · exact sep_apart (sep_of_sides (Or.inr h)).symm

def offB (s : St ℚ) (x : ℚ × ℚ) : Bool := s.sid.live.all fun e => offSegB (s.xy (s.vtx (e, false))) (s.xy (s.vtx (e, true))) x

theorem offB_ok {s : St ℚ} {x : ℚ × ℚ} (h : offB s x = true) : Off s x := fun e he => offSegB_ok (List.all_eq_true.1 h e he)

def clearB (s : St ℚ) (x y : ℚ × ℚ) : Bool := s.sid.live.all fun e => apartB (s.xy (s.vtx (e, false))) (s.xy (s.vtx (e, true))) x y

theorem clearB_ok {s : St ℚ} {x y : ℚ × ℚ} (h : clearB s x y = true) : Clear s x y := fun e he => apartB_ok (List.all_eq_true.1 h e he)

/-- The side is seen from `x` by its middle. -/
def seesB (s : St ℚ) (d : HE) (x : ℚ × ℚ) : Bool :=
  decide (d.1 ∈ s.sid.live) && decide (0 < side (org s d) (dst s d) x) &&
    s.sid.live.all fun e => decide (e = d.1) || apartB (s.xy (s.vtx (e, false))) (s.xy (s.vtx (e, true))) (onDart s d (1 / 2)) x

theorem seesB_ok {s : St ℚ} {d : HE} {x : ℚ × ℚ} (h : seesB s d x = true) : Sees s d x := by
  simp only [seesB, Bool.and_eq_true, decide_eq_true_eq] at h
  refine ⟨h.1.1, h.1.2, 1 / 2, by norm_num, by norm_num, fun e he hne => ?_⟩
  have := List.all_eq_true.1 h.2 e he
  rw [Bool.or_eq_true] at this
  exact apartB_ok (this.resolve_left fun k => hne (of_decide_eq_true k))

def nearB (s : St ℚ) : Bool := s.wid.live.all fun w => match s.wseg w with
  | some d => seesB s d (sidePoint demo s d)
  | none => true

theorem nearB_ok {s : St ℚ} (h : nearB s = true) : Near demo s := by
  intro w hw _ d hd
  have := List.all_eq_true.1 h w hw
  rw [hd] at this
  exact seesB_ok this

/-- The segment `i` meets the line from `a` to `b` nowhere or in a common end only, or it is a segment from `a` to `b`. -/
def meetB (s : St ℚ) (a b i : Id) : Bool :=
  apartB (s.xy (s.vtx (i, false))) (s.xy (s.vtx (i, true))) (s.xy a) (s.xy b) || [false, true].any fun v =>
    (decide (s.vtx (i, v) = a) || decide (s.vtx (i, v) = b)) &&
      (decide (side (s.xy a) (s.xy b) (s.xy (s.vtx (i, !v))) ≠ 0) || decide (s.vtx (i, v) = a ∧ s.vtx (i, !v) = b))

def freeLineB (s : St ℚ) (a b : Id) : Bool :=
  (s.pid.live.all fun p => decide (p = a) || decide (p = b) || offSegB (s.xy a) (s.xy b) (s.xy p)) && s.sid.live.all fun i => meetB s a b i

theorem freeLineB_ok {s : St ℚ} {a b : Id} (ha : a ∈ s.pid.live) (hb : b ∈ s.pid.live) (h : freeLineB s a b = true) : FreeLine s a b := by
  rw [freeLineB, Bool.and_eq_true] at h
  constructor
  · intro p hp u u0 u1 hh
    have := List.all_eq_true.1 h.1 p hp
    simp only [Bool.or_eq_true, decide_eq_true_eq] at this
    rcases this with k | k
    · exact k
    · exact absurd ⟨u, u0, u1, hh⟩ (offSegB_ok k)
  · intro i hi hn u u' u0 u1 u0' u1' hh
    have := List.all_eq_true.1 h.2 i hi
    rw [meetB, Bool.or_eq_true] at this
    rcases this with k | k
    · exact absurd ⟨u', u0', u1', hh⟩ (apartB_ok k _ ⟨u, u0, u1, rfl⟩)
    · obtain ⟨v, _, hv⟩ := List.any_eq_true.1 k
      simp only [Bool.and_eq_true, Bool.or_eq_true, decide_eq_true_eq] at hv
      obtain ⟨hv1, hv2⟩ := hv
      have hs := hv2.resolve_right (hn v)
      have hvl : s.vtx (i, v) ∈ s.pid.live := by rcases hv1 with k | k <;> rw [k] <;> assumption
      refine ⟨s.vtx (i, v), hvl, ?_⟩
      have z0 : side (s.xy a) (s.xy b) (segPt s i u) = 0 := by
        rw [hh]
        simp only [side, between]
        ring
      have zv : side (s.xy a) (s.xy b) (s.xy (s.vtx (i, v))) = 0 := by
        rcases hv1 with k | k <;> rw [k] <;> simp only [side] <;> ring
      have lin : side (s.xy a) (s.xy b) (segPt s i u) =
          (1 - u) * side (s.xy a) (s.xy b) (s.xy (s.vtx (i, false))) + u * side (s.xy a) (s.xy b) (s.xy (s.vtx (i, true))) := by
        simp only [side, segPt, between]
        ring
      rw [z0] at lin
      cases v
      · simp only [Bool.not_false] at hs
        rw [zv, mul_zero, zero_add] at lin
        have : u = 0 := (mul_eq_zero.1 lin.symm).resolve_right hs
        rw [this, segPt, between_zero]
      · simp only [Bool.not_true] at hs
        rw [zv, mul_zero, add_zero] at lin
        have : 1 - u = 0 := (mul_eq_zero.1 lin.symm).resolve_right hs
        rw [show u = 1 by linarith, segPt, between_one]

/-- A step of a drawing. -/
inductive Draw where
  | point (xy : ℚ × ℚ) (q : Id)
  | unpoint (p : Id)
  | drag (p : Id) (d : ℚ × ℚ)
  | onSeg (e : Id) (t : ℚ)
  | line (a b : Id)
  | unline (e : Id)
  | join (mid e0 e1 : Id)

/-- The step if its conditions hold and it raises nothing. -/
def draw (s : St ℚ) : Draw → Option (St ℚ)
  | .point xy q =>
    if q ∈ s.qid.live ∧ (∀ p ∈ s.pid.live, s.xy p ≠ xy) ∧ offB s xy = true ∧ polyContains s q xy = .ok true then some (addFreePoint xy q s).2
    else none
  | .unpoint p => (removeFreePoint p s).toOption
  | .drag p d =>
    if p ∈ s.pid.live ∧ s.pseg p = none ∧ (∀ q ∈ s.pid.live, s.xy q = ((s.xy p).1 + d.1, (s.xy p).2 + d.2) → q = p) ∧
      clearB s (s.xy p) ((s.xy p).1 + d.1, (s.xy p).2 + d.2) = true then (movePoint p d s).toOption
    else none
  | .onSeg e t =>
    if e ∈ s.sid.live ∧ 0 ∈ s.qid.live ∧ 0 < t ∧ t < 1 then
      (splitSegment e s.pid.append.1 (addFreePoint (segPt s e t) 0 s).2).toOption.map Prod.snd
    else none
  | .line a b =>
    if a ∈ s.pid.live ∧ b ∈ s.pid.live ∧ freeLineB s a b = true then
      match newSegment demo a b s with
      | .ok r => if nearB r.2 = true then some r.2 else none
      | .error _ => none
    else none
  | .unline e =>
    if e ∈ s.sid.live ∧ (s.wire (e, true) = s.wire (e, false) → s.next (e, true) = some (e, false) ∨ s.next (e, false) = some (e, true)) then
      (deleteSegment demo e s).toOption
    else none
  | .join mid e0 e1 =>
    if goodB s (.joinSegments mid e0 e1) = true then
      match joinSegments mid e0 e1 s with
      | .ok s1 => (removeFreePoint mid s1).toOption
      | .error _ => none
    else none

theorem draw_ok {s s' : St ℚ} (h : Drawing demo s) {o : Draw} (ho : draw s o = some s') : Drawing demo s' := by
  have tr : ∀ {α : Type} {x : Except Err α} {y : α}, x.toOption = some y → x = .ok y := by
    intro α x y hx
    cases x with
    | error e => cases hx
    | ok z =>
      simp only [Except.toOption, Option.some.injEq] at hx
      rw [hx]
  cases o with
  | point xy q =>
    rw [draw] at ho
    split at ho
    · next k =>
      cases ho
      exact .point h k.1 k.2.1 (offB_ok k.2.2.1) k.2.2.2
    · cases ho
  | unpoint p => exact .unpoint h (tr ho)
  | drag p d =>
    rw [draw] at ho
    split at ho
    · next k => exact .drag h k.1 k.2.1 k.2.2.1 (clearB_ok k.2.2.2) (tr ho)
    · cases ho
  | onSeg e t =>
    rw [draw] at ho
    split at ho
    · next k =>
      obtain ⟨⟨n, s1⟩, h1, rfl⟩ := Option.map_eq_some_iff.1 ho
      exact .onSeg h k.1 k.2.1 k.2.2.1 k.2.2.2 (tr h1)
    · cases ho
  | line a b =>
    rw [draw] at ho
    split at ho
    · next k =>
      split at ho
      · next r hr =>
        split at ho
        · next hn =>
          cases ho
          exact .line h k.1 k.2.1 (freeLineB_ok k.1 k.2.1 k.2.2) (e := r.1) hr (nearB_ok hn)
        · cases ho
      · cases ho
    · cases ho
  | unline e =>
    rw [draw] at ho
    split at ho
    · next k =>
      refine .unline h k.1 (fun hh hn => ?_) (tr ho)
      rcases k.2 hh with l | l
      · exact absurd l (hn true)
      · exact absurd l (hn false)
    · cases ho
  | join mid e0 e1 =>
    rw [draw] at ho
    split at ho
    · next k =>
      obtain ⟨k1, k2⟩ := goodB_ok k
      split at ho
      · next s1 hs1 => exact .join h k1.1 k1.2 k2 hs1 (tr ho)
      · cases ho
    · cases ho

/-- Steps one after the other. -/
def draws : List Draw → St ℚ → Option (St ℚ)
  | [], s => some s
  | o :: l, s => (draw s o).bind (draws l)

theorem draws_ok : ∀ {l : List Draw} {s s' : St ℚ}, Drawing demo s → draws l s = some s' → Drawing demo s'
  | [], s, s', h, hs => by cases hs; exact h
  | o :: l, s, s', h, hs => by
    obtain ⟨t, h1, h2⟩ := Option.bind_eq_some_iff.1 hs
    exact draws_ok (draw_ok h h1) h2

/-- A square with a free point, a triangle in it with a free point, a line from the square to itself and a line from it to the triangle;
the free points are moved, a segment is divided and joined again, and the line to the triangle is removed. -/
def fullDrawing : List Draw := [
  .point (0, 0) 0, .point (12, 0) 0, .point (12, 12) 0, .point (0, 12) 0, .line 0 1, .line 1 2, .line 2 3, .line 3 0,
  .point (1, 1) 1, .point (2, 2) 1, .point (6, 2) 1, .point (4, 5) 1, .line 5 6, .line 6 7, .line 7 5,
  .point (4, 3) 2, .onSeg 1 (1 / 3), .onSeg 3 (1 / 2), .line 9 10, .drag 4 (0, 4)]

/-- The state after `fullDrawing` has four polygons: two of the square, one of the triangle and the outer one. -/
theorem fullDrawing_runs : ∃ s, draws fullDrawing init = some s ∧ s.qid.live.length = 4 ∧ s.sid.live.length = 10 ∧
    s.ppoly 4 ≠ s.ppoly 8 ∧ s.pseg 4 = none ∧ s.pseg 8 = none := by
  have : (match draws fullDrawing init with
    | some s => decide (s.qid.live.length = 4 ∧ s.sid.live.length = 10 ∧ s.ppoly 4 ≠ s.ppoly 8 ∧ s.pseg 4 = none ∧ s.pseg 8 = none)
    | none => false) = true := by decide +kernel
  split at this
  · next s hs => exact ⟨s, hs, of_decide_eq_true this⟩
  · cases this

/-- The hypotheses of `plane_partition`, `free_point_home`, `side_polygon`, `path_polygon` and `free_ends` in one drawing with four
polygons: a point off the segments, two free points in different polygons, a point that sees a side of the triangle, two points with a
clear path between them, and, after one more point, two free points with a clear path. -/
theorem fullDrawing_case : ∃ s, Drawing demo s ∧ s.qid.live.length = 4 ∧ Off s (11, 11) ∧ Clear s (11, 11) (1, 11) ∧
    (4 ∈ s.pid.live ∧ s.pseg 4 = none ∧ 8 ∈ s.pid.live ∧ s.pseg 8 = none ∧ s.ppoly 4 ≠ s.ppoly 8) ∧
    (Sees s (4, true) (4, 1) ∨ Sees s (4, false) (4, 1)) ∧
    (11 ∈ s.pid.live ∧ s.pseg 11 = none ∧ Clear s (s.xy 4) (s.xy 11)) := by
  have : (match draws (fullDrawing ++ [.point (3, 5) 3]) init with
    | some s => decide (s.qid.live.length = 4) && offB s (11, 11) && clearB s (11, 11) (1, 11) &&
      decide (4 ∈ s.pid.live ∧ s.pseg 4 = none ∧ 8 ∈ s.pid.live ∧ s.pseg 8 = none ∧ s.ppoly 4 ≠ s.ppoly 8) &&
      (seesB s (4, true) (4, 1) || seesB s (4, false) (4, 1)) &&
      decide (11 ∈ s.pid.live ∧ s.pseg 11 = none) && clearB s (s.xy 4) (s.xy 11)
    | none => false) = true := by decide +kernel
  split at this
  · next s hs =>
    simp only [Bool.and_eq_true, Bool.or_eq_true, decide_eq_true_eq] at this
    obtain ⟨⟨⟨⟨⟨⟨h1, h2⟩, h3⟩, h4⟩, h5⟩, h6⟩, h7⟩ := this
    exact ⟨s, draws_ok .init hs, h1, offB_ok h2, clearB_ok h3, h4, h5.imp seesB_ok seesB_ok, h6.1, h6.2, clearB_ok h7⟩
  · cases this

end Verif.Decomp
