import Verif.Merge.Props
import Verif.Front.Demo

/-! Intersections with rational coordinates. -/

namespace Verif.Merge
open Verif.Decomp (St Id HE sidePoly)
open Verif.Front (Fr Cfg Err Range Call calls demoCfg Crosses)
open Verif.Plane (intersection)

/-- Range for tolerances from 1/1000. -/
def mergeRange : Range ℚ := ⟨1000, 3 / 2, 1 / 1000, 1, 50⟩

theorem merge_nums : Nums demoCfg mergeRange (1 / 1000) := by
  refine ⟨?_, ?_, ?_⟩
  · constructor <;> norm_num [mergeRange]
  · norm_num [demoCfg]
  · norm_num [mergeRange]

/-- The decomposition made by the calls, an empty one if they fail. -/
def made (os : List (Call ℚ)) : Fr ℚ :=
  match calls demoCfg os (Verif.Front.init 1000 (3 / 2) (1 / 100)) with
  | .ok f => f
  | .error _ => Verif.Front.init 1000 (3 / 2) (1 / 100)

/-- A square with the lower left corner `x` and the side `a`. -/
def square (x : ℚ × ℚ) (a : ℚ) : List (Call ℚ) :=
  [.addLine x (x.1 + a, x.2), .addLine (x.1 + a, x.2) (x.1 + a, x.2 + a), .addLine (x.1 + a, x.2 + a) (x.1, x.2 + a), .addLine (x.1, x.2 + a) x]

instance (s : St ℚ) : Decidable (Verif.Decomp.NoSwap s) := by unfold Verif.Decomp.NoSwap; infer_instance

/-- Test for `Plain`. -/
def plainTest (c : Cfg ℚ) (g : Log ℚ) : Prop :=
  (∀ s ∈ g.states, Verif.Decomp.NoSwap s) ∧
  ∀ x ∈ g.lines, ∀ e ∈ x.1.dec.sid.live, ∀ e' ∈ x.1.dec.sid.live,
    ∀ t ∈ (intersection c.eps (x.1.dec.xy (x.1.dec.vtx (e, false))) (x.1.dec.vec e) (x.1.dec.xy x.2.1) (x.1.dec.xy x.2.2)).toList,
    ∀ t' ∈ (intersection c.eps (x.1.dec.xy (x.1.dec.vtx (e', false))) (x.1.dec.vec e') (x.1.dec.xy x.2.1) (x.1.dec.xy x.2.2)).toList,
      t.2 = t'.2 → e = e'

instance (c : Cfg ℚ) (g : Log ℚ) : Decidable (plainTest c g) := by unfold plainTest; infer_instance

theorem plain_of_test {c : Cfg ℚ} {g : Log ℚ} (h : plainTest c g) : Plain c g :=
  ⟨h.1, fun x hx e e' t t' h1 h2 ht => h.2 x hx e h1.1 e' h2.1 t (by simp [h1.2]) t' (by simp [h2.2]) ht⟩

/-- Test for `Given`. -/
def givenTest (s : St ℚ) : Prop := s.pid.live.Nodup ∧ s.sid.live.Nodup ∧ ∀ p ∈ s.pid.live, Verif.Front.Bounded mergeRange.C (s.xy p)

instance (s : St ℚ) : Decidable (givenTest s) := by unfold givenTest; infer_instance

/-- The intersections of a run. -/
def stagesOf (c : Cfg ℚ) (tol : ℚ) : Fr ℚ → List (Fr ℚ) → Except Err (List (Maps × Log ℚ × Fr ℚ))
  | _, [] => .ok []
  | f, o :: os => do
    let (m, g, f1) ← intersectSingle c tol o.dec f
    let st ← stagesOf c tol f1 os
    .ok ((m, g, f1) :: st)

theorem stagesOf_ok {c : Cfg ℚ} {tol : ℚ} : ∀ {os : List (Fr ℚ)} {f : Fr ℚ} {st : List (Maps × Log ℚ × Fr ℚ)}, stagesOf c tol f os = .ok st →
    Stages c tol f os st
  | [], f, st, h => by cases h; exact .nil
  | o :: os, f, st, h => by
    rw [stagesOf] at h
    simp only [Verif.Front.bindOk] at h
    obtain ⟨⟨m, g, f1⟩, h1, st', h2, h⟩ := h
    cases h
    exact .cons h1 (stagesOf_ok h2)

/-- The whole run, the conditions of the theorems and then the test of the result. -/
def tested (ds : List (Fr ℚ)) (t : List (Maps × Log ℚ × Fr ℚ) → List Dims → Fr ℚ → Bool) : Bool :=
  match stagesOf demoCfg (1 / 1000) (Verif.Front.init mergeRange.inf mergeRange.rt2 (1 / 100)) ds,
    intersectDecompositions demoCfg mergeRange.inf mergeRange.rt2 (1 / 1000) ds with
  | .ok st, .ok (ms, f) => decide (∀ o ∈ ds, givenTest o.dec) && decide (∀ x ∈ st, plainTest demoCfg x.2.1) && t st ms f
  | _, _ => false

theorem tested_ok {ds : List (Fr ℚ)} {t : List (Maps × Log ℚ × Fr ℚ) → List Dims → Fr ℚ → Bool} (hd : ds.length ≠ 1) (h : tested ds t = true) :
    ∃ st ms f, RunAll demoCfg mergeRange (1 / 1000) ds st ms f ∧ t st ms f = true := by
  unfold tested at h
  split at h
  · next st ms f h1 h2 =>
    simp only [Bool.and_eq_true, decide_eq_true_eq] at h
    obtain ⟨⟨h3, h4⟩, h5⟩ := h
    exact ⟨st, ms, f, ⟨merge_nums, by norm_num [mergeRange], fun o ho => ⟨(h3 o ho).1, (h3 o ho).2.1, (h3 o ho).2.2⟩, hd, h2, stagesOf_ok h1,
      fun x hx => plain_of_test (h4 x hx)⟩, h5⟩
  · cases h

/-- Two squares that overlap. -/
def squares : List (Fr ℚ) := [made (square (0, 0) 10), made (square (5, 5) 10)]

/-- The conditions of C53 and C125 to C129 hold for two squares that overlap. Each square has two of its sides divided, the polygon 3 is
the common part, and it is in the square of both. -/
theorem squares_run : ∃ st ms f, RunAll demoCfg mergeRange (1 / 1000) squares st ms f ∧
    f.dec.sid.live = [0, 1, 2, 3, 4, 5, 6, 7, 8, 9, 10, 11] ∧ f.dec.qid.live = [0, 1, 2, 3] ∧
    ms = [⟨[(0, 0), (1, 1), (2, 2), (3, 3)], [(0, 0), (1, 1), (2, 2), (3, 3), (4, 1), (9, 2)], [(0, 0), (1, 1), (2, 0), (3, 1)]⟩,
      ⟨[(4, 0), (5, 1), (6, 2), (7, 3)], [(5, 0), (6, 0), (7, 1), (8, 2), (10, 3), (11, 3)], [(1, 0), (0, 0), (2, 1), (3, 1)]⟩] := by
  obtain ⟨st, ms, f, h1, h2⟩ := tested_ok (ds := squares) (t := fun _ ms f => decide (f.dec.sid.live = [0, 1, 2, 3, 4, 5, 6, 7, 8, 9, 10, 11] ∧
    f.dec.qid.live = [0, 1, 2, 3] ∧
    ms = [⟨[(0, 0), (1, 1), (2, 2), (3, 3)], [(0, 0), (1, 1), (2, 2), (3, 3), (4, 1), (9, 2)], [(0, 0), (1, 1), (2, 0), (3, 1)]⟩,
      ⟨[(4, 0), (5, 1), (6, 2), (7, 3)], [(5, 0), (6, 0), (7, 1), (8, 2), (10, 3), (11, 3)], [(1, 0), (0, 0), (2, 1), (3, 1)]⟩]))
    (by decide) (by decide +kernel)
  exact ⟨st, ms, f, h1, of_decide_eq_true h2⟩

/-- A square and a segment beside it. -/
def besides : List (Fr ℚ) := [made (square (0, 0) 10), made [.addLine (20, 0) (20, 10)]]

/-- **C53 fails for polygons.** The inside of the square is in the only polygon 0 of the second decomposition, but the map of the second
decomposition has no value for it: the search follows only outer wires and the square is a hole. -/
theorem intersect_polygon_omitted : ∃ st ms f, RunAll demoCfg mergeRange (1 / 1000) besides st ms f ∧ f.dec.qid.live = [0, 1] ∧
    ms.map (fun d => d.polys) = [[(0, 0), (1, 1)], [(0, 0)]] := by
  obtain ⟨st, ms, f, h1, h2⟩ := tested_ok (ds := besides) (t := fun _ ms f => decide (f.dec.qid.live = [0, 1] ∧
    ms.map (fun d => d.polys) = [[(0, 0), (1, 1)], [(0, 0)]])) (by decide) (by decide +kernel)
  exact ⟨st, ms, f, h1, of_decide_eq_true h2⟩

/-- Test of the exception. -/
def fails (ds : List (Fr ℚ)) : Bool :=
  match intersectDecompositions demoCfg mergeRange.inf mergeRange.rt2 (1 / 1000) ds with
  | .error .assertion => true
  | _ => false

theorem fails_ok {ds : List (Fr ℚ)} (h : fails ds = true) :
    intersectDecompositions demoCfg mergeRange.inf mergeRange.rt2 (1 / 1000) ds = .error .assertion := by
  unfold fails at h
  split at h
  · next hh => exact hh
  · cases h

/-- **C53 fails for decompositions without segments.** With an empty one, or one with a free point only, in a list of two the call ends
with the failed assertion at merge.py:204, because no polygon gets a value. -/
theorem intersect_empty_fails :
    intersectDecompositions demoCfg mergeRange.inf mergeRange.rt2 (1 / 1000) [made (square (0, 0) 10), made []] = .error .assertion ∧
    intersectDecompositions demoCfg mergeRange.inf mergeRange.rt2 (1 / 1000) [made (square (0, 0) 10), made [.addPoint (5, 5)]] =
      .error .assertion := ⟨fails_ok (by decide +kernel), fails_ok (by decide +kernel)⟩

/-- A square and a point beside its corner. -/
def nearly : Fr ℚ := made (square (20, 0) 5 ++ [.setTolerance (1 / 10000), .addPoint (19 + 1999 / 2000, 0)])

/-- **C53 fails for near points.** When two points of a decomposition are nearer than the tolerance of the intersection, the call ends
with the failed assertion at merge.py:204. -/
theorem intersect_near_fails : nearly.dec.pid.live = [0, 1, 2, 3, 4] ∧ nearly.dec.xy 0 = (20, 0) ∧ nearly.dec.xy 4 = (19 + 1999 / 2000, 0) ∧
    intersectDecompositions demoCfg mergeRange.inf mergeRange.rt2 (1 / 1000) [made (square (0, 0) 10), nearly] = .error .assertion :=
  ⟨by decide +kernel, by decide +kernel, by decide +kernel, fails_ok (by decide +kernel)⟩

end Verif.Merge
