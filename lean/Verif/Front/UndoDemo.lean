import Verif.Front.Undo
import Verif.Front.Demo

/-! Programs with the frontend and the undo stack, with rational coordinates. -/

namespace Verif.Front
open Verif.Decomp (St Id HE Alike Fine Bare Between NewDir)
open Verif.Undo (World Stack Docs)

/-- The frontend without objects and the empty stack, recording. -/
def demoW : World (Fr ℚ) Err := ⟨demo0, Stack.init⟩

/-- Test of `Apart`. -/
def apartTest (s : St ℚ) (a b : Id) : Bool := s.sid.live.all fun e =>
  !(decide (s.vtx (e, false) = a ∧ s.vtx (e, true) = b)) && !(decide (s.vtx (e, true) = a ∧ s.vtx (e, false) = b))

theorem apartTest_ok {s : St ℚ} {a b : Id} (h : apartTest s a b = true) : Verif.Decomp.Apart s a b := by
  rintro ⟨e, v⟩ hd hh
  have := List.all_eq_true.1 h e hd
  simp only [Bool.and_eq_true, Bool.not_eq_true', decide_eq_false_iff_not] at this
  cases v
  exacts [this.1 hh, this.2 hh]

/-- Test of `Bare`. -/
def bareTest (s : St ℚ) (p : Id) : Bool := s.sid.live.all fun e => decide (s.vtx (e, false) ≠ p ∧ s.vtx (e, true) ≠ p)

theorem bareTest_ok {s : St ℚ} {p : Id} (h : bareTest s p = true) : Bare s p := by
  rintro ⟨e, v⟩ hd
  have := of_decide_eq_true (List.all_eq_true.1 h e hd)
  cases v
  exacts [this.1, this.2]

/-- Test of the conditions of a call. -/
def Prm.test (f : Fr ℚ) : Prm ℚ → Bool
  | .addSeg a b => decide (a ∈ f.dec.pid.live ∧ b ∈ f.dec.pid.live) && apartTest f.dec a b && Verif.Decomp.newDirB f.dec a b &&
      Verif.Decomp.newDirB f.dec b a
  | .split e mid => decide (e ∈ f.dec.sid.live ∧ mid ∈ f.dec.pid.live) && bareTest f.dec mid &&
      Verif.Decomp.betweenB (f.dec.xy (f.dec.vtx (e, false))) (f.dec.xy mid) (f.dec.xy (f.dec.vtx (e, true)))
  | _ => true

theorem Prm.test_ok {f : Fr ℚ} {p : Prm ℚ} (h : p.test f = true) : p.Ok demoCfg f := by
  cases p with
  | addSeg a b =>
    simp only [Prm.test, Bool.and_eq_true, decide_eq_true_eq] at h
    exact ⟨h.1.1.1.1, h.1.1.1.2, apartTest_ok h.1.1.2, Verif.Decomp.newDirB_ok h.1.2, Verif.Decomp.newDirB_ok h.2⟩
  | split e mid =>
    simp only [Prm.test, Bool.and_eq_true, decide_eq_true_eq] at h
    exact ⟨h.1.1.1, h.1.1.2, bareTest_ok h.1.2, Verif.Decomp.betweenB_ok h.2⟩
  | _ => trivial

/-- Test of the conditions of calls one after another. -/
def tests : List (Prm ℚ) → Fr ℚ → Bool
  | [], _ => true
  | p :: ps, f => p.test f && match p.act demoCfg f with
    | .ok r => tests ps r.1
    | .error _ => true

theorem tests_ok : ∀ {ps : List (Prm ℚ)} {f : Fr ℚ}, tests ps f = true → Oks demoCfg ps f
  | [], _, _ => trivial
  | p :: ps, f, h => by
    simp only [tests, Bool.and_eq_true] at h
    refine ⟨Prm.test_ok h.1, fun f' v h1 => tests_ok ?_⟩
    have := h.2
    rw [h1] at this
    exact this

/-- The program runs without exceptions and with its conditions, and the test holds at the end. -/
def runs (t : World (Fr ℚ) Err → Docs (Fr ℚ) → Bool) : List (Act ℚ) → World (Fr ℚ) Err → Docs (Fr ℚ) → Bool
  | [], w, h => t w h
  | a :: as, w, h =>
    (match a with
    | .call p => p.test w.doc
    | .group _ ps => tests ps w.doc
    | _ => true) &&
    match Verif.Undo.step w (a.op demoCfg) with
    | (w1, none) => runs t as w1 (h.step w.doc w1.doc (a.op demoCfg))
    | (_, some _) => false

theorem runs_ok {t : World (Fr ℚ) Err → Docs (Fr ℚ) → Bool} : ∀ {as : List (Act ℚ)} {w : World (Fr ℚ) Err} {h : Docs (Fr ℚ)},
    runs t as w h = true → ∃ w' h', Acts demoCfg w h as w' h' ∧ t w' h' = true
  | [], w, h, hr => ⟨w, h, .nil, hr⟩
  | a :: as, w, h, hr => by
    simp only [runs, Bool.and_eq_true] at hr
    obtain ⟨h1, h2⟩ := hr
    cases hs : Verif.Undo.step w (a.op demoCfg) with
    | mk w1 e =>
      rw [hs] at h2
      cases e with
      | some e => simp at h2
      | none =>
        obtain ⟨w', h', k1, k2⟩ := runs_ok h2
        refine ⟨w', h', .cons ?_ hs k1, k2⟩
        cases a with
        | call p => exact Prm.test_ok h1
        | group fmt ps => exact tests_ok h1
        | undo => trivial
        | redo => trivial
        | clear => trivial
        | savepoint => trivial

/-- What `add_line` from (0, 0) to (10, 0) calls in the empty frontend. -/
def lineActs : List (Act ℚ) := [.call (.addPt (0, 0) 0), .call (.addPt (10, 0) 0), .call (.addSeg 0 1)]

/-- A program with a split, a group, removals, `undo` and `redo` that meets the hypotheses of C153. -/
def demoActs : List (Act ℚ) := lineActs ++ [.group (fun _ => "") [.addPt (5, 0) 0, .split 0 2], .call (.addPt (5, 5) 0),
  .call (.addSeg 2 3), .call (.rmSeg 1), .undo, .undo, .undo, .undo, .redo, .redo, .call (.addPt (7, 7) 0)]

theorem demo_acts : ∃ w h, Acts demoCfg demoW ⟨[], demo0, []⟩ demoActs w h ∧ h.past.length = 6 ∧ h.future = [] ∧
    w.doc.dec.pid.live = [0, 1, 2, 3, 4] ∧ w.doc.dec.sid.live = [0, 1] := by
  obtain ⟨w, h, h1, h2⟩ := runs_ok (t := fun w h => decide (h.past.length = 6 ∧ h.future.length = 0 ∧
    w.doc.dec.pid.live = [0, 1, 2, 3, 4] ∧ w.doc.dec.sid.live = [0, 1])) (as := demoActs) (w := demoW) (h := ⟨[], demo0, []⟩)
    (by decide +kernel)
  obtain ⟨k1, k2, k3, k4⟩ := of_decide_eq_true h2
  exact ⟨w, h, h1, k1, List.length_eq_zero_iff.1 k2, k3, k4⟩

/-- C153 on that program. -/
example : ∃ w h, Acts demoCfg demoW ⟨[], demo0, []⟩ demoActs w h ∧ Like w.doc h.now := by
  obtain ⟨w, h, h1, _⟩ := demo_acts
  exact ⟨w, h, h1, (frontend_undo (c := demoCfg) Verif.Decomp.demo_ok (Verif.Decomp.init_fine _) h1).2.1⟩

/-- Documents that meet the hypotheses of C154 for each of its calls: the line. -/
example : ∃ f : Fr ℚ, Fine demoCfg.geo f.dec ∧ 0 < f.tol ∧ f.dec.sid.live = [0] ∧
    (∃ f', call demoCfg f (.addPoint (5, 0)) = .ok f') ∧ (∃ f', call demoCfg f (.deleteSegment 0) = .ok f') ∧
    ∃ f', call demoCfg f (.deletePoint 0) = .ok f' := by
  obtain ⟨w, h, h1, h2⟩ := runs_ok (t := fun w _ => decide (0 < w.doc.tol) && decide (w.doc.dec.sid.live = [0]) &&
    (call demoCfg w.doc (.addPoint (5, 0))).isOk && (call demoCfg w.doc (.deleteSegment 0)).isOk &&
    (call demoCfg w.doc (.deletePoint 0)).isOk) (as := lineActs) (w := demoW) (h := ⟨[], demo0, []⟩) (by decide +kernel)
  simp only [Bool.and_eq_true, decide_eq_true_eq] at h2
  obtain ⟨⟨⟨⟨k1, k2⟩, k3⟩, k4⟩, k5⟩ := h2
  have ok : ∀ {r : Except Err (Fr ℚ)}, r.isOk = true → ∃ f', r = .ok f' := by
    intro r hr
    cases r with
    | ok f' => exact ⟨f', rfl⟩
    | error e => simp [Except.isOk, Except.toBool] at hr
  exact ⟨w.doc, (frontend_undo (c := demoCfg) Verif.Decomp.demo_ok (Verif.Decomp.init_fine _) h1).1, k1, k2, ok k3, ok k4, ok k5⟩

/-- The last call of the program raises, and the test holds for the world after it. -/
def raises (t : World (Fr ℚ) Err → Bool) : List (Act ℚ) → World (Fr ℚ) Err → Bool
  | [], _ => false
  | [a], w => match Verif.Undo.step w (a.op demoCfg) with
    | (w1, some _) => t w1
    | (_, none) => false
  | a :: as, w => match Verif.Undo.step w (a.op demoCfg) with
    | (w1, none) => raises t as w1
    | (_, some _) => false

/-- The program runs without exceptions, and the test holds at the end. -/
def ends (t : World (Fr ℚ) Err → Bool) : List (Act ℚ) → World (Fr ℚ) Err → Bool
  | [], w => t w
  | a :: as, w => match Verif.Undo.step w (a.op demoCfg) with
    | (w1, none) => ends t as w1
    | (_, some _) => false

/-- C155 refuted: `_add_segment` of a segment that exists is recorded, its `undo` deletes the segment that was there before. The
next `undo` raises and clears the history. -/
theorem undo_existing :
    ends (fun w => decide (w.doc.dec.sid.live = [0] ∧ w.stk.undocount = 4)) (lineActs ++ [.call (.addSeg 0 1)]) demoW = true ∧
    ends (fun w => decide (w.doc.dec.sid.live = [] ∧ w.stk.undocount = 3)) (lineActs ++ [.call (.addSeg 0 1), .undo]) demoW = true ∧
    raises (fun w => decide (w.stk.undocount = 0 ∧ w.doc.dec.pid.live = [0, 1])) (lineActs ++ [.call (.addSeg 0 1), .undo, .undo])
      demoW = true := by decide +kernel

/-- C155 refuted: the attribute of a removed segment does not come back with the segment. -/
theorem undo_attr :
    ends (fun w => decide (w.doc.dec.sid.live = [0] ∧ w.doc.bnd 0 = some true)) (lineActs ++ [.call (.attr 0 (some true))]) demoW = true ∧
    ends (fun w => decide (w.doc.dec.sid.live = [0] ∧ w.doc.bnd 0 = none))
      (lineActs ++ [.call (.attr 0 (some true)), .call (.rmSeg 0), .undo]) demoW = true := by decide +kernel

/-- An attribute set and changed: each `undo` gives back the one before. -/
example :
    ends (fun w => decide (w.doc.bnd 0 = some false))
      (lineActs ++ [.call (.attr 0 (some true)), .call (.attr 0 (some false))]) demoW = true ∧
    ends (fun w => decide (w.doc.bnd 0 = some true))
      (lineActs ++ [.call (.attr 0 (some true)), .call (.attr 0 (some false)), .undo]) demoW = true ∧
    ends (fun w => decide (w.doc.bnd 0 = none))
      (lineActs ++ [.call (.attr 0 (some true)), .call (.attr 0 (some false)), .undo, .undo]) demoW = true := by decide +kernel

/-- The calls of `add_point` at the middle of the segment, undone. -/
def splitUndone : List (Act ℚ) := lineActs ++ [.call (.addPt (5, 0) 0), .call (.split 0 2), .undo, .undo]

/-- C155 refuted: `_join_segments` does not put back the vector of the segment. A point that `add_point` joins to the segment
before stays free after the segment was split and the split undone. -/
theorem undo_point :
    ends (fun w => match addPoint demoCfg (8, 0) w.doc with
      | .ok r => decide (r.2.dec.pid.live = [0, 1, 2] ∧ r.2.dec.sid.live = [0, 1]) | .error _ => false) lineActs demoW = true ∧
    ends (fun w => match addPoint demoCfg (8, 0) w.doc with
      | .ok r => decide (r.2.dec.pid.live = [0, 1, 2] ∧ r.2.dec.sid.live = [0]) | .error _ => false) splitUndone demoW = true := by
  decide +kernel

/-- C155 refuted: `add_line` across the second half of the segment finds the crossing before, and misses it after the split was
undone. -/
theorem undo_line :
    ends (fun w => match addLine demoCfg (8, 5) (8, -5) w.doc with
      | .ok r => decide (r.2.dec.pid.live.length = 5 ∧ r.2.dec.sid.live.length = 4) | .error _ => false) lineActs demoW = true ∧
    ends (fun w => match addLine demoCfg (8, 5) (8, -5) w.doc with
      | .ok r => decide (r.2.dec.pid.live.length = 4 ∧ r.2.dec.sid.live.length = 2) | .error _ => false) splitUndone demoW = true := by
  decide +kernel

end Verif.Front
