import Verif.Front.Line
import Verif.Front.Displace
import Verif.Plane.Demo

/-! Runs of the frontend with rational coordinates. -/

namespace Verif.Front
open Verif.Decomp (St Id HE Geom)
open Verif.Plane (parametric projectPoint intersection dist2)

/-- The geometry of `Verif.Decomp.demo`. The norm is the right one for vectors along the axes and for multiples of (±40, ±9)
and (±9, ±40), the only ones for which it is used in the runs below; for others it is a little more. -/
def demoCfg : Cfg ℚ where
  geo := Verif.Decomp.demo
  nrm := fun v =>
    let m := max |v.1| |v.2|
    let k := min |v.1| |v.2|
    if 9 * m = 40 * k then m * (41 / 40) else m + k * (29 / 70)
  eps := 1 / 10000000000
  order := id
  depth := 50

/-- The tolerance is one; the infinity and the root of two are 1000 and 3/2. -/
def demo0 : Fr ℚ := init 1000 (3 / 2) 1

def demoRange : Range ℚ := ⟨1000, 3 / 2, 1 / 10, 1, 50⟩

theorem demoRange_ok : demoRange.Ok := by constructor <;> norm_num [demoRange]

instance (C : ℚ) (p : ℚ × ℚ) : Decidable (Bounded C p) := by unfold Bounded; infer_instance

instance (r : Range ℚ) : DecidablePred (Fits r) := fun o => by
  cases o <;> unfold Fits <;> infer_instance

theorem demo_run {os : List (Call ℚ)} (ho : ∀ o ∈ os, Fits demoRange o) {f : Fr ℚ} (h : calls demoCfg os demo0 = .ok f) :
    Run demoCfg demoRange f :=
  ⟨demoRange_ok, 1, os, by norm_num [demoRange], ho, h⟩

/-- State after the calls, and then the test. -/
def after (os : List (Call ℚ)) (t : Fr ℚ → Bool) : Bool :=
  match calls demoCfg os demo0 with
  | .ok f => t f
  | .error _ => false

theorem after_ok {os : List (Call ℚ)} {t : Fr ℚ → Bool} (h : after os t = true) :
    ∃ f, calls demoCfg os demo0 = .ok f ∧ t f = true := by
  unfold after at h
  split at h
  · next f hf => exact ⟨f, hf, h⟩
  · cases h

/-- The point that `add_point` returns, and then the test of the new state. -/
def adds (x : ℚ × ℚ) (p : Id) (t : Fr ℚ → Bool) (f : Fr ℚ) : Bool :=
  match addPoint demoCfg x f with
  | .ok r => decide (r.1 = p) && t r.2
  | .error _ => false

theorem adds_ok {x : ℚ × ℚ} {p : Id} {t : Fr ℚ → Bool} {f : Fr ℚ} (h : adds x p t f = true) :
    ∃ f', addPoint demoCfg x f = .ok (p, f') ∧ t f' = true := by
  unfold adds at h
  split at h
  · next r hr =>
    simp only [Bool.and_eq_true, decide_eq_true_eq] at h
    exact ⟨r.2, by rw [hr, ← h.1], h.2⟩
  · cases h

/-- Two lines that cross: five points, four segments. The hypotheses of C113 to C117 hold for this run. -/
def cross : List (Call ℚ) := [.addLine (0, 0) (10, 0), .addLine (5, 5) (5, -5)]

theorem cross_run : ∃ f, calls demoCfg cross demo0 = .ok f ∧ Run demoCfg demoRange f ∧
    f.dec.pid.live = [0, 1, 2, 3, 4] ∧ f.dec.xy 4 = (5, 0) ∧ f.dec.sid.live = [0, 1, 2, 3] := by
  obtain ⟨f, hf, h⟩ := after_ok (os := cross) (t := fun f => decide (f.dec.pid.live = [0, 1, 2, 3, 4] ∧ f.dec.xy 4 = (5, 0) ∧
    f.dec.sid.live = [0, 1, 2, 3])) (by decide +kernel)
  exact ⟨f, hf, demo_run (by decide +kernel) hf, of_decide_eq_true h⟩

/-- C114 to C117 on the crossing lines: near a point, near a segment, far from all. -/
theorem cross_add : ∃ f, calls demoCfg cross demo0 = .ok f ∧ addPoint demoCfg (1 / 2, 1 / 2) f = .ok (0, f) ∧
    (∃ f', addPoint demoCfg (2, 1 / 2) f = .ok (5, f') ∧ f'.dec.xy 5 = (2, 0) ∧ f'.dec.pseg 5 ≠ none) ∧
    ∃ f', addPoint demoCfg (2, 3) f = .ok (5, f') ∧ f'.dec.xy 5 = (2, 3) ∧ f'.dec.pseg 5 = none := by
  obtain ⟨f, hf, h⟩ := after_ok (os := cross) (t := fun f =>
    adds (2, 1 / 2) 5 (fun f' => decide (f'.dec.xy 5 = (2, 0) ∧ f'.dec.pseg 5 ≠ none)) f &&
    adds (2, 3) 5 (fun f' => decide (f'.dec.xy 5 = (2, 3) ∧ f'.dec.pseg 5 = none)) f &&
    decide (0 ∈ f.dec.pid.live ∧ f.dec.xy 0 = (0, 0) ∧ f.tol = 1 ∧
      ∀ p ∈ f.dec.pid.live, dist2 (f.dec.xy p) (1 / 2, 1 / 2) < f.tol * f.tol → p = 0)) (by decide +kernel)
  simp only [Bool.and_eq_true, decide_eq_true_eq] at h
  obtain ⟨⟨h1, h2⟩, h3, h4, h5, h6⟩ := h
  obtain ⟨f1, g1, k1⟩ := adds_ok h1
  obtain ⟨f2, g2, k2⟩ := adds_ok h2
  refine ⟨f, hf, ?_, ⟨f1, g1, of_decide_eq_true k1⟩, f2, g2, of_decide_eq_true k2⟩
  obtain ⟨p, hp, hn, he⟩ := add_point_snaps (demo_run (by decide +kernel) hf) (x := (1 / 2, 1 / 2)) (by decide +kernel)
    ⟨0, h3, by rw [h4, h5]; norm_num [dist2]⟩
  rw [h6 p hp hn] at he
  exact he

/-- C117 fails at a place on the axis of two segments that meet in an acute angle: `add_point` called twice with the same
coordinates returns two points, and the second call divides the other segment. -/
theorem add_point_twice_differs : ∃ f f1 f2, calls demoCfg [.addLine (40, 9) (0, 0), .addLine (0, 0) (40, -9)] demo0 = .ok f ∧
    Run demoCfg demoRange f ∧ addPoint demoCfg (6 / 5, 0) f = .ok (3, f1) ∧ addPoint demoCfg (6 / 5, 0) f1 = .ok (4, f2) ∧
    f1.dec.xy 3 = (41 / 18, 41 / 80) ∧ f2.dec.xy 4 = (41 / 18, -41 / 80) := by
  obtain ⟨f, hf, h⟩ := after_ok (os := [.addLine (40, 9) (0, 0), .addLine (0, 0) (40, -9)]) (t :=
    adds (6 / 5, 0) 3 (fun f1 => decide (f1.dec.xy 3 = (41 / 18, 41 / 80)) &&
      adds (6 / 5, 0) 4 (fun f2 => decide (f2.dec.xy 4 = (41 / 18, -41 / 80))) f1)) (by decide +kernel)
  obtain ⟨f1, h1, h⟩ := adds_ok h
  simp only [Bool.and_eq_true, decide_eq_true_eq] at h
  obtain ⟨f2, h2, h3⟩ := adds_ok h.2
  exact ⟨f, f1, f2, hf, demo_run (by decide +kernel) hf, h1, h2, h.1, of_decide_eq_true h3⟩

/-- C113 fails after `move_points`: the table still has the box of the old place, so `add_point` at the new place of the point
makes a second point with the same coordinates. -/
theorem moved_point_lost : ∃ f f', calls demoCfg
      [.addPoint (0, 0), .addPoint (20, 0), .addPoint (20, 10), .movePoints [0] (20, 20)] demo0 = .ok f ∧
    0 ∈ f.dec.pid.live ∧ f.dec.xy 0 = (20, 20) ∧ addPoint demoCfg (20, 20) f = .ok (3, f') ∧
    0 ∈ f'.dec.pid.live ∧ 3 ∈ f'.dec.pid.live ∧ f'.dec.xy 0 = f'.dec.xy 3 := by
  obtain ⟨f, hf, h⟩ := after_ok (os := [.addPoint (0, 0), .addPoint (20, 0), .addPoint (20, 10), .movePoints [0] (20, 20)])
    (t := fun f => decide (0 ∈ f.dec.pid.live ∧ f.dec.xy 0 = (20, 20)) && adds (20, 20) 3 (fun f' => decide
      (0 ∈ f'.dec.pid.live ∧ 3 ∈ f'.dec.pid.live ∧ f'.dec.xy 0 = f'.dec.xy 3)) f) (by decide +kernel)
  simp only [Bool.and_eq_true, decide_eq_true_eq] at h
  obtain ⟨f', h1, h2⟩ := adds_ok h.2
  exact ⟨f, f', hf, h.1.1, h.1.2, h1, of_decide_eq_true h2⟩

/-- C118: a point, deleted; and a line whose segment is deleted. -/
theorem emptied_table_runs :
    (∃ f, calls demoCfg [.addPoint (0, 0), .deletePoint 0] demo0 = .ok f ∧ addPoint demoCfg (5, 5) f = .error .keyError) ∧
    ∃ f, calls demoCfg [.addLine (0, 0) (10, 0), .deleteSegment 0] demo0 = .ok f ∧
      addPoint demoCfg (5, 5) f = .error .keyError := by
  constructor
  · obtain ⟨f, hf, h⟩ := after_ok (os := [.addPoint (0, 0), .deletePoint 0]) (t := fun f => match addPoint demoCfg (5, 5) f with
      | .ok _ => false
      | .error e => decide (e = .keyError)) (by decide +kernel)
    refine ⟨f, hf, ?_⟩
    split at h
    · cases h
    · next e he => rw [he, of_decide_eq_true h]
  · obtain ⟨f, hf, h⟩ := after_ok (os := [.addLine (0, 0) (10, 0), .deleteSegment 0]) (t := fun f =>
      match addPoint demoCfg (5, 5) f with
      | .ok _ => false
      | .error e => decide (e = .keyError)) (by decide +kernel)
    refine ⟨f, hf, ?_⟩
    split at h
    · cases h
    · next e he => rw [he, of_decide_eq_true h]

/-- Result of `add_line` and test of the new state. -/
def addsLine (x y : ℚ × ℚ) (t : LineResult → Fr ℚ → Bool) (f : Fr ℚ) : Bool :=
  match addLine demoCfg x y f with
  | .ok r => t r.1 r.2
  | .error _ => false

theorem addsLine_ok {x y : ℚ × ℚ} {t : LineResult → Fr ℚ → Bool} {f : Fr ℚ} (h : addsLine x y t f = true) :
    ∃ l f', addLine demoCfg x y f = .ok (l, f') ∧ t l f' = true := by
  unfold addsLine at h
  split at h
  · next r hr => exact ⟨r.1, r.2, hr, h⟩
  · cases h

/-- `add_line` does not return a list when both ends are taken for the same point: it returns that point. -/
theorem add_line_returns_point : ∃ f, calls demoCfg [.addLine (0, 0) (10, 0)] demo0 = .ok f ∧
    ∃ f', addLine demoCfg (0, 1 / 2) (1 / 4, 0) f = .ok (.point 0, f') := by
  obtain ⟨f, hf, h⟩ := after_ok (os := [.addLine (0, 0) (10, 0)]) (t := addsLine (0, 1 / 2) (1 / 4, 0) fun l _ =>
    decide (l = .point 0)) (by decide +kernel)
  obtain ⟨l, f', h1, h2⟩ := addsLine_ok h
  rw [of_decide_eq_true h2] at h1
  exact ⟨f, hf, f', h1⟩

/-- Two segments from (0, -5) and a line that crosses them in points nearer than the tolerance: `add_line` raises an
`AttributeError`, as new segments have no attribute (polygons.py:516). -/
theorem merge_attribute_error : ∃ f, calls demoCfg [.addLine (0, -5) (0, 5), .addLine (0, -5) (3, 5)] demo0 = .ok f ∧
    addLine demoCfg (-5, -4) (5, -4) f = .error .attributeError := by
  obtain ⟨f, hf, h⟩ := after_ok (os := [.addLine (0, -5) (0, 5), .addLine (0, -5) (3, 5)]) (t := fun f =>
    match addLine demoCfg (-5, -4) (5, -4) f with
    | .ok _ => false
    | .error e => decide (e = .attributeError)) (by decide +kernel)
  refine ⟨f, hf, ?_⟩
  split at h
  · cases h
  · next e he => rw [he, of_decide_eq_true h]

/-- The same when `check_displacment` forbids the merge: the line has a gap. The points 7 and 8 of the returned segments 5 and 6
are not joined by a segment. -/
theorem merge_leaves_gap : ∃ f, calls demoCfg [.setTolerance (1 / 10), .addLine (0, -5) (0, 5), .addLine (0, -5) (3, 5),
      .addLine (138 / 100, 0) (1 / 2, 0), .setTolerance 1] demo0 = .ok f ∧ Run demoCfg demoRange f ∧
    ∃ f', addLine demoCfg (-5, -4) (5, -4) f = .ok (.segments [5, 6], f') ∧
      f'.dec.xy (f'.dec.vtx (5, false)) = (-5, -4) ∧ f'.dec.xy (f'.dec.vtx (5, true)) = (0, -4) ∧
      f'.dec.xy (f'.dec.vtx (6, false)) = (3 / 10, -4) ∧ f'.dec.xy (f'.dec.vtx (6, true)) = (5, -4) ∧
      ∀ e ∈ f'.dec.sid.live, ∀ v, ¬ (f'.dec.vtx (e, v) = f'.dec.vtx (5, true) ∧ f'.dec.vtx (e, !v) = f'.dec.vtx (6, false)) := by
  obtain ⟨f, hf, h⟩ := after_ok (os := [.setTolerance (1 / 10), .addLine (0, -5) (0, 5), .addLine (0, -5) (3, 5),
      .addLine (138 / 100, 0) (1 / 2, 0), .setTolerance 1]) (t := addsLine (-5, -4) (5, -4) fun l f' =>
    decide (l = .segments [5, 6] ∧
      f'.dec.xy (f'.dec.vtx (5, false)) = (-5, -4) ∧ f'.dec.xy (f'.dec.vtx (5, true)) = (0, -4) ∧
      f'.dec.xy (f'.dec.vtx (6, false)) = (3 / 10, -4) ∧ f'.dec.xy (f'.dec.vtx (6, true)) = (5, -4) ∧
      ∀ e ∈ f'.dec.sid.live, ∀ v, ¬ (f'.dec.vtx (e, v) = f'.dec.vtx (5, true) ∧
        f'.dec.vtx (e, !v) = f'.dec.vtx (6, false)))) (by decide +kernel)
  obtain ⟨l, f', h1, h2⟩ := addsLine_ok h
  obtain ⟨h3, h4⟩ := of_decide_eq_true h2
  rw [h3] at h1
  exact ⟨f, hf, demo_run (by decide +kernel) hf, f', h1, h4⟩

/-- `check_displacment` allows every displacement of a free point: the point 4 in the square is moved out of it and keeps the
polygon 1. -/
theorem free_point_leaves_polygon : ∃ f, calls demoCfg [.addLine (0, 0) (10, 0), .addLine (10, 0) (10, 10),
      .addLine (10, 10) (0, 10), .addLine (0, 10) (0, 0), .addPoint (5, 5)] demo0 = .ok f ∧
    f.dec.ppoly 4 = some 1 ∧ polyContains f.dec 1 (5, 5) = .ok true ∧ checkDisplacement demoCfg [4] (20, 0) f = .ok true ∧
    ∃ f', movePoints (20, 0) [4] f = .ok f' ∧ f'.dec.xy 4 = (25, 5) ∧ f'.dec.ppoly 4 = some 1 ∧
      polyContains f'.dec 1 (25, 5) = .ok false := by
  obtain ⟨f, hf, h⟩ := after_ok (os := [.addLine (0, 0) (10, 0), .addLine (10, 0) (10, 10),
      .addLine (10, 10) (0, 10), .addLine (0, 10) (0, 0), .addPoint (5, 5)]) (t := fun f =>
    decide (f.dec.ppoly 4 = some 1) && (match polyContains f.dec 1 (5, 5) with
      | .ok b => b
      | .error _ => false) && (match checkDisplacement demoCfg [4] (20, 0) f with
      | .ok b => b
      | .error _ => false) && (match movePoints (20, 0) [4] f with
      | .ok f' => decide (f'.dec.xy 4 = (25, 5) ∧ f'.dec.ppoly 4 = some 1) && (match polyContains f'.dec 1 (25, 5) with
        | .ok b => !b
        | .error _ => false)
      | .error _ => false)) (by decide +kernel)
  simp only [Bool.and_eq_true, decide_eq_true_eq] at h
  obtain ⟨⟨⟨h1, h2⟩, h3⟩, h4⟩ := h
  refine ⟨f, hf, h1, ?_, ?_, ?_⟩
  · split at h2
    · next hb => rw [hb, h2]
    · cases h2
  · split at h3
    · next hb => rw [hb, h3]
    · cases h3
  · split at h4
    · next f' hf' =>
      simp only [Bool.and_eq_true, decide_eq_true_eq] at h4
      refine ⟨f', hf', h4.1.1, h4.1.2, ?_⟩
      have h5 := h4.2
      split at h5
      · next b hb =>
        rw [hb]
        cases b
        · rfl
        · cases h5
      · cases h5
    · cases h4

/-- C122: the point 2, given as the first one, is merged in the point 1. -/
theorem merge_run : ∃ f, calls demoCfg [.addLine (0, 0) (10, 0), .addLine (7, 3) (7, 6), .setAttr 1 (some false)] demo0 = .ok f ∧
    Run demoCfg demoRange f ∧ ∃ f', mergePoints demoCfg 2 1 f = .ok (1, f') ∧ f'.dec.pid.live = [0, 1, 3] ∧
      f'.dec.sid.live = [0, 1] ∧ (f'.dec.vtx (1, false), f'.dec.vtx (1, true)) = (1, 3) := by
  obtain ⟨f, hf, h⟩ := after_ok (os := [.addLine (0, 0) (10, 0), .addLine (7, 3) (7, 6), .setAttr 1 (some false)])
    (t := fun f => match mergePoints demoCfg 2 1 f with
      | .ok r => decide (r.1 = 1 ∧ r.2.dec.pid.live = [0, 1, 3] ∧ r.2.dec.sid.live = [0, 1] ∧
          (r.2.dec.vtx (1, false), r.2.dec.vtx (1, true)) = (1, 3))
      | .error _ => false) (by decide +kernel)
  refine ⟨f, hf, demo_run (by decide +kernel) hf, ?_⟩
  split at h
  · next r hr =>
    obtain ⟨k1, k2⟩ := of_decide_eq_true h
    exact ⟨r.2, by rw [hr, ← k1], k2⟩
  · cases h

/-- C112 on a line through an end of a segment: it is divided there although it crosses nothing. -/
theorem line_through_run : ∃ f, calls demoCfg [.addLine (5, 0) (5, 5), .addLine (0, 0) (10, 0)] demo0 = .ok f ∧
    Run demoCfg demoRange f ∧ f.dec.pid.live = [0, 1, 2, 3] ∧ f.dec.xy 0 = (5, 0) ∧ f.dec.sid.live = [0, 1, 2] ∧
    (f.dec.vtx (1, false), f.dec.vtx (1, true)) = (2, 0) ∧ (f.dec.vtx (2, false), f.dec.vtx (2, true)) = (0, 3) := by
  obtain ⟨f, hf, h⟩ := after_ok (os := [.addLine (5, 0) (5, 5), .addLine (0, 0) (10, 0)]) (t := fun f =>
    decide (f.dec.pid.live = [0, 1, 2, 3] ∧ f.dec.xy 0 = (5, 0) ∧ f.dec.sid.live = [0, 1, 2] ∧
    (f.dec.vtx (1, false), f.dec.vtx (1, true)) = (2, 0) ∧ (f.dec.vtx (2, false), f.dec.vtx (2, true)) = (0, 3)))
    (by decide +kernel)
  exact ⟨f, hf, demo_run (by decide +kernel) hf, of_decide_eq_true h⟩

/-- C119 on one segment and a line across it: the hypotheses hold, and the line is divided in (5, 0). -/
theorem line_divided_run : ∃ f, calls demoCfg [.addLine (0, 0) (10, 0), .addPoint (5, 5), .addPoint (5, -5)] demo0 = .ok f ∧
    Run demoCfg demoRange f ∧ Clear demoCfg f 2 3 ∧ Crosses demoCfg f 2 3 0 (1 / 2, 1 / 2) ∧
    ∃ f', addLinePts demoCfg 50 2 3 [2, 3] f = .ok ([2, 3], f') ∧ f'.dec.xy 4 = (5, 0) ∧ f'.dec.vtx (2, true) = 4 ∧
      f'.dec.vtx (3, false) = 4 := by
  obtain ⟨f, hf, h⟩ := after_ok (os := [.addLine (0, 0) (10, 0), .addPoint (5, 5), .addPoint (5, -5)]) (t := fun f =>
    decide (f.tol = 1 ∧ f.dec.sid.live = [0] ∧ f.dec.vtx (0, false) = 0 ∧ f.dec.vtx (0, true) = 1 ∧ f.dec.xy 0 = (0, 0) ∧
      f.dec.xy 1 = (10, 0) ∧ f.dec.xy 2 = (5, 5) ∧ f.dec.xy 3 = (5, -5) ∧ f.dec.vec 0 = (10, 0) ∧
      intersection demoCfg.eps (0, 0) (10, 0) (5, 5) (5, -5) = some (1 / 2, 1 / 2)) &&
    (match addLinePts demoCfg 50 2 3 [2, 3] f with
      | .ok r => decide (r.1 = [2, 3] ∧ r.2.dec.xy 4 = (5, 0) ∧ r.2.dec.vtx (2, true) = 4 ∧ r.2.dec.vtx (3, false) = 4)
      | .error _ => false)) (by decide +kernel)
  simp only [Bool.and_eq_true, decide_eq_true_eq] at h
  obtain ⟨⟨h1, h2, h3, h4, h5, h6, h7, h8, h9, h10⟩, h11⟩ := h
  have hcr : ∀ e t, Crosses demoCfg f 2 3 e t → e = 0 ∧ t = (1 / 2, 1 / 2) := by
    rintro e t ⟨he, ht⟩
    rw [h2, List.mem_singleton] at he
    subst he
    rw [h3, h5, h7, h8, h9, h10] at ht
    exact ⟨rfl, (Option.some.inj ht).symm⟩
  refine ⟨f, hf, demo_run (by decide +kernel) hf, ⟨?_, ?_, ?_⟩, ?_, ?_⟩
  · intro e he v _ _ s _ _
    rw [h2, List.mem_singleton] at he
    subst he
    cases v
    · rw [h3, h5, h1]
      simp only [lineAt, h7, h8, dist2, parametric, sub]
      nlinarith [mul_self_nonneg (5 + s * (-5 - 5))]
    · rw [h4, h6, h1]
      simp only [lineAt, h7, h8, dist2, parametric, sub]
      nlinarith [mul_self_nonneg (5 + s * (-5 - 5))]
  · intro e e' t t' h h' hne
    exact absurd ((hcr e t h).1.trans (hcr e' t' h').1.symm) hne
  · intro e t h
    obtain ⟨rfl, rfl⟩ := hcr e t h
    simp only [lineAt, h7, h8, dist2, parametric, sub, h1]
    norm_num
  · refine ⟨by rw [h2]; simp, ?_⟩
    rw [h3, h5, h7, h8, h9, h10]
  · split at h11
    · next r hr =>
      obtain ⟨k1, k2⟩ := of_decide_eq_true h11
      exact ⟨r.2, by rw [hr, ← k1], k2⟩
    · cases h11

/-- C121: the corner (4, 0) of the triangle with the corners (0, 0), (4, 0), (0, 4) may be moved by (-1, 0) and not by (-6, 1),
over the side opposite to it. The hypotheses of `displacement_clear_partial` hold for the first displacement and that side. The
displacement (-6, 0) leads to the other side of that side too and is allowed, as the way goes through its end. -/
theorem triangle_displacement : ∃ f : Fr ℚ, Verif.Decomp.SoundReach demoCfg.geo f.dec ∧ 1 ∈ f.dec.pid.live ∧
    checkDisplacement demoCfg [1] (-1, 0) f = .ok true ∧ checkDisplacement demoCfg [1] (-6, 1) f = .ok false ∧
    checkDisplacement demoCfg [1] (-6, 0) f = .ok true ∧
    0 ∈ f.dec.sid.live ∧ f.dec.vtx (0, true) = 1 ∧ 2 ∈ f.dec.sid.live ∧ (∀ u, f.dec.vtx (2, u) ∉ [1]) ∧
    ∃ v w q, f.dec.wire (0, v) = some w ∧ f.dec.wpoly w = some q ∧ ∃ u, f.dec.wire (2, u) = some (f.dec.outer q) ∧
      Below f.dec (f.dec.outer q) (f.dec.outer q) := by
  refine ⟨{ demo0 with dec := Verif.Decomp.after Verif.Plane.triangle }, Verif.Plane.triangle_good, ?_⟩
  have key : ∀ {x : Except Err Bool} {b : Bool}, (match x with
      | .ok y => decide (y = b)
      | .error _ => false) = true → x = .ok b := by
    intro x b h
    split at h
    · rw [of_decide_eq_true h]
    · cases h
  refine ⟨by decide +kernel, key (by decide +kernel), key (by decide +kernel), key (by decide +kernel), by decide +kernel,
    by decide +kernel, by decide +kernel, by decide +kernel, ?_⟩
  have h : ∃ v ∈ [false, true], ∃ w ∈ [1, 2], ∃ q ∈ [1, 2],
      (Verif.Decomp.after Verif.Plane.triangle).wire (0, v) = some w ∧
      (Verif.Decomp.after Verif.Plane.triangle).wpoly w = some q ∧ ∃ u ∈ [false, true],
      (Verif.Decomp.after Verif.Plane.triangle).wire (2, u) = some ((Verif.Decomp.after Verif.Plane.triangle).outer q) := by
    decide +kernel
  obtain ⟨v, _, w, _, q, _, h1, h2, u, _, h3⟩ := h
  exact ⟨v, w, q, h1, h2, u, h3, .refl⟩

end Verif.Front
