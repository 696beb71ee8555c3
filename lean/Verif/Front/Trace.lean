import Verif.Front.Model
import Verif.Decomp.Vec
import Mathlib.Logic.Relation

/-! Every call of the frontend is a sequence of calls of the methods that change the decomposition and the tables. -/

namespace Verif.Front
open Verif.Decomp (St Id HE Geom)
open Verif.Plane (parametric projectPoint intersection dist2)

variable {K : Type}

theorem bindOk {α β : Type} {x : Except Err α} {f : α → Except Err β} {b : β} :
    (x >>= f) = .ok b ↔ ∃ a, x = .ok a ∧ f a = .ok b := by
  cases x with
  | error e => simp [bind, Except.bind]
  | ok a => simp [bind, Except.bind]

theorem liftD_ok {α : Type} {x : Except Verif.Decomp.Err α} {a : α} : liftD x = .ok a ↔ x = .ok a := by
  cases x <;> simp [liftD]

theorem liftB_ok {α : Type} {x : Except Verif.Aabb.Err α} {a : α} : liftB x = .ok a ↔ x = .ok a := by
  cases x <;> simp [liftB]

theorem key_ok {m : Verif.Decomp.Ids} {i : Id} {u : Unit} : key m i = .ok u ↔ i ∈ m.live := by
  unfold key; split <;> simp_all

theorem checkOk {p : Prop} [Decidable p] {u : Unit} : check p = .ok u ↔ p := by
  unfold check; split <;> simp_all

theorem needOk {α : Type} {e : Err} {o : Option α} {a : α} : need e o = .ok a ↔ o = some a := by
  cases o <;> simp [need]

variable [Field K] [LinearOrder K]

/-- One call of the methods polygons.py:625-669, a split with the new point, a new attribute. `P` holds for the coordinates of
points that are not on a segment. -/
inductive Prim (c : Cfg K) (P : K × K → Prop) : Fr K → Fr K → Prop where
  | addPt {xy : K × K} {q p : Id} {f f' : Fr K} (hP : P xy) (h : addPt xy q f = .ok (p, f')) : Prim c P f f'
  | addSegment {a b e : Id} {f f' : Fr K} (h : addSegment c a b f = .ok (e, f')) : Prim c P f f'
  | rmPt {p : Id} {f f' : Fr K} (h : rmPt p f = .ok f') : Prim c P f f'
  | rmSegment {e : Id} {f f' : Fr K} (h : rmSegment c e f = .ok f') : Prim c P f f'
  | split {e mid n : Id} {t : K} {f f1 f2 : Fr K}
      (h0 : ¬ scaledLt t (dot (f.dec.vec e) (f.dec.vec e)) f.tol)
      (h1 : ¬ scaledLt (1 - t) (dot (f.dec.vec e) (f.dec.vec e)) f.tol)
      (ha : Front.addPt (parametric (f.dec.xy (f.dec.vtx (e, false))) (f.dec.vec e) t) 0 f = .ok (mid, f1))
      (hs : splitSegment e mid f1 = .ok (n, f2)) : Prim c P f f2
  | attr {e : Id} {b : Option Bool} {f : Fr K} (h : e ∈ f.dec.sid.live) :
      Prim c P f { f with bnd := Function.update f.bnd e b }

/-- Many of them. -/
abbrev Prims (c : Cfg K) (P : K × K → Prop) : Fr K → Fr K → Prop := Relation.ReflTransGen (Prim c P)

variable {Q : K × K → Prop}

theorem pointOnSegment_prims {c : Cfg K} {e : Id} {t : K} {f f' : Fr K} {m : Id × Id}
    (h : pointOnSegment e t f = .ok (m, f')) : Prims c Q f f' := by
  unfold pointOnSegment at h
  dsimp only at h
  split at h
  · cases h; exact .refl
  split at h
  · cases h; exact .refl
  next h0 h1 =>
  simp only [bindOk] at h
  obtain ⟨⟨mid, f1⟩, ha, ⟨n, f2⟩, hs, h⟩ := h
  cases h
  exact .single (.split h0 h1 ha hs)

theorem addPoint_prims {c : Cfg K} {x : K × K} {f f' : Fr K} {p : Id} (hx : Q x) (h : addPoint c x f = .ok (p, f')) : Prims c Q f f' := by
  unfold addPoint at h
  simp only [bindOk] at h
  obtain ⟨r, _, h⟩ := h
  cases r with
  | point p => cases h; exact .refl
  | segment e t =>
    simp only [bindOk] at h
    obtain ⟨⟨m, f1⟩, h1, h⟩ := h
    cases h
    exact pointOnSegment_prims h1
  | polygon q => exact .single (.addPt hx h)

theorem mergeSegs_prims {c : Cfg K} {a : Id} {l : List HE} : ∀ {f f' : Fr K}, mergeSegs c a l f = .ok f' → Prims c Q f f' := by
  induction l with
  | nil => intro f f' h; cases h; exact .refl
  | cons d l ih =>
    intro f f' h
    rw [mergeSegs] at h
    simp only [bindOk] at h
    obtain ⟨f1, h1, ⟨e, f2⟩, h2, h⟩ := h
    refine .trans (.single (.rmSegment h1)) (.trans ?_ (ih h))
    split at h2 <;> exact .single (.addSegment h2)

theorem mergePoints_prims {c : Cfg K} {a b p : Id} {f f' : Fr K} (h : mergePoints c a b f = .ok (p, f')) : Prims c Q f f' := by
  unfold mergePoints at h
  simp only [bindOk] at h
  obtain ⟨can, _, h⟩ := h
  split at h
  · simp only [bindOk] at h
    obtain ⟨d, _, isB, _, h⟩ := h
    split at h
    · cases h; exact .refl
    · simp only [bindOk] at h
      obtain ⟨l, _, f1, h1, f2, h2, h⟩ := h
      cases h
      exact .trans (mergeSegs_prims h1) (.single (.rmPt h2))
  · cases h; exact .refl

theorem segIsecs_prims {c : Cfg K} {a b : Id} {es : List Id} : ∀ {l : List (Div K)} {f : Fr K} {r : List (Div K) × Fr K},
    segIsecs c a b es l f = .ok r → Prims c Q f r.2 := by
  induction es with
  | nil => intro l f r h; cases h; exact .refl
  | cons e es ih =>
    intro l f r h
    rw [segIsecs] at h
    simp only [bindOk] at h
    obtain ⟨_, _, h⟩ := h
    split at h
    · exact ih h
    · simp only [bindOk] at h
      obtain ⟨⟨m, f1⟩, h1, h⟩ := h
      exact .trans (pointOnSegment_prims h1) (ih h)

theorem newSegs_prims {c : Cfg K} {b : Id} {ds : List (Div K)} : ∀ {start : Id} {f f' : Fr K} {l : List Id},
    newSegs c b start ds f = .ok (l, f') → Prims c Q f f' := by
  induction ds with
  | nil =>
    intro start f f' l h
    rw [newSegs] at h
    split at h
    · simp only [bindOk] at h
      obtain ⟨⟨e, f1⟩, h1, h⟩ := h
      cases h
      exact .single (.addSegment h1)
    · cases h; exact .refl
  | cons d ds ih =>
    intro start f f' l h
    rw [newSegs] at h
    split at h
    · exact ih h
    split at h
    · simp only [bindOk] at h
      obtain ⟨⟨p, f1⟩, h1, h⟩ := h
      exact .trans (mergePoints_prims h1) (ih h)
    · simp only [bindOk] at h
      obtain ⟨⟨e, f1⟩, h1, ⟨l1, f2⟩, h2, h⟩ := h
      cases h
      exact .trans (.single (.addSegment h1)) (ih h2)

theorem addLinePts_prims {c : Cfg K} : ∀ {n : Nat} {a b : Id} {om : List Id} {f f' : Fr K} {l : List Id},
    addLinePts c n a b om f = .ok (l, f') → Prims c Q f f' := by
  intro n
  induction n with
  | zero => intro a b om f f' l h; cases h
  | succ n ih =>
    intro a b om f f' l h
    rw [addLinePts] at h
    split at h
    · cases h; exact .refl
    simp only [bindOk] at h
    obtain ⟨x, _, cs, _, s, _, h⟩ := h
    cases s with
    | some p =>
      simp only [bindOk] at h
      obtain ⟨⟨l0, f1⟩, h1, ⟨l1, f2⟩, h2, h⟩ := h
      cases h
      exact .trans (ih h1) (ih h2)
    | none =>
      simp only [bindOk] at h
      obtain ⟨⟨l0, f1⟩, h1, h⟩ := h
      unfold lineIsecs at h1
      simp only [bindOk] at h1
      obtain ⟨_, _, h1⟩ := h1
      exact .trans (segIsecs_prims h1) (newSegs_prims h)

theorem addLine_prims {c : Cfg K} {x y : K × K} {f f' : Fr K} {r : LineResult} (hx : Q x) (hy : Q y)
    (h : addLine c x y f = .ok (r, f')) :
    Prims c Q f f' := by
  unfold addLine at h
  simp only [bindOk] at h
  obtain ⟨⟨a, f1⟩, h1, ⟨b, f2⟩, h2, h⟩ := h
  refine .trans (addPoint_prims hx h1) (.trans (addPoint_prims hy h2) ?_)
  dsimp only at h
  split at h
  · cases h; exact .refl
  · simp only [bindOk] at h
    obtain ⟨⟨l, f3⟩, h3, h⟩ := h
    cases h
    exact addLinePts_prims h3

theorem rmSegments_prims {c : Cfg K} {l : List HE} : ∀ {f f' : Fr K}, rmSegments c l f = .ok f' → Prims c Q f f' := by
  induction l with
  | nil => intro f f' h; cases h; exact .refl
  | cons d l ih =>
    intro f f' h
    rw [rmSegments] at h
    simp only [bindOk] at h
    obtain ⟨f1, h1, h⟩ := h
    exact .trans (.single (.rmSegment h1)) (ih h)

theorem deletePoint_prims {c : Cfg K} {p : Id} {f f' : Fr K} (h : deletePoint c p f = .ok f') : Prims c Q f f' := by
  unfold deletePoint at h
  simp only [bindOk] at h
  obtain ⟨l, _, f1, h1, h⟩ := h
  exact .trans (rmSegments_prims h1) (.single (.rmPt h))

/-- Calls that move no point and leave the tolerance; `Q` holds for the coordinates given. -/
def Still (Q : K × K → Prop) : Call K → Prop
  | .addPoint x => Q x
  | .addLine x y => Q x ∧ Q y
  | .movePoints _ _ => False
  | .setTolerance _ => False
  | _ => True

theorem call_prims {c : Cfg K} {f f' : Fr K} {o : Call K} (h : call c f o = .ok f') (hs : Still Q o) : Prims c Q f f' := by
  cases o with
  | addPoint x =>
    simp only [call, bindOk] at h
    obtain ⟨⟨p, f1⟩, h1, h⟩ := h
    cases h
    exact addPoint_prims hs h1
  | addLine x y =>
    simp only [call, bindOk] at h
    obtain ⟨⟨p, f1⟩, h1, h⟩ := h
    cases h
    exact addLine_prims hs.1 hs.2 h1
  | addLineForPoints a b o =>
    simp only [call, bindOk] at h
    obtain ⟨⟨p, f1⟩, h1, h⟩ := h
    cases h
    exact addLinePts_prims h1
  | newSegment a b =>
    simp only [call, bindOk] at h
    obtain ⟨⟨p, f1⟩, h1, h⟩ := h
    cases h
    exact .single (.addSegment h1)
  | deleteSegment e => exact .single (.rmSegment h)
  | deletePoint p => exact deletePoint_prims h
  | mergePoints a b =>
    simp only [call, bindOk] at h
    obtain ⟨⟨p, f1⟩, h1, h⟩ := h
    cases h
    exact mergePoints_prims h1
  | movePoints ps d => exact absurd hs (by simp [Still])
  | setTolerance t => exact absurd hs (by simp [Still])
  | setAttr e b =>
    simp only [call, setAttr, bindOk, key_ok] at h
    obtain ⟨_, h1, h⟩ := h
    cases h
    exact .single (.attr h1)

/-! ### The decomposition below -/

/-- Each step of the frontend is a sequence of valid calls of the decomposition. -/
theorem prim_reach {c : Cfg K} {P : St K → Verif.Decomp.Op K → Prop} {f f' : Fr K} (h : Prim c Q f f')
    (hr : Verif.Decomp.ReachBy c.geo P f.dec) (hP : ∀ s o, (∀ p d, o ≠ .move p d) → (∀ m x y, o ≠ .joinSegments m x y) → P s o) :
    Verif.Decomp.ReachBy c.geo P f'.dec := by
  cases h with
  | @addPt xy q p _ _ _ h =>
    simp only [Front.addPt, bindOk] at h
    obtain ⟨_, _, b, _, h⟩ := h
    cases h
    exact .step (o := .addPoint xy q) hr trivial (hP _ _ (by simp) (by simp)) rfl
  | @addSegment a b e _ _ h =>
    simp only [Front.addSegment, bindOk, liftD_ok, key_ok] at h
    obtain ⟨_, ha, _, hb, r, h1, x, _, h⟩ := h
    cases h
    refine .step (o := .newSegment a b) hr ⟨ha, hb⟩ (hP _ _ (by simp) (by simp)) ?_
    simp only [Verif.Decomp.step, h1]
    rfl
  | @rmPt p _ _ h =>
    simp only [Front.rmPt, bindOk, liftD_ok, liftB_ok, key_ok] at h
    obtain ⟨_, _, pl, _, d, h1, h⟩ := h
    cases h
    exact .step (o := .removePoint p) hr trivial (hP _ _ (by simp) (by simp)) h1
  | @rmSegment e _ _ h =>
    simp only [Front.rmSegment, bindOk, liftD_ok, liftB_ok, key_ok] at h
    obtain ⟨_, he, sl, _, d, h1, h⟩ := h
    cases h
    exact .step (o := .deleteSegment e) hr he (hP _ _ (by simp) (by simp)) h1
  | @split e mid n t _ f1 _ h0 h1 ha hs =>
    simp only [Front.addPt, bindOk] at ha
    obtain ⟨_, _, b, _, ha⟩ := ha
    cases ha
    simp only [Front.splitSegment, bindOk, liftD_ok, key_ok] at hs
    obtain ⟨_, he, _, hm, r, h2, x, _, hs⟩ := hs
    cases hs
    have hr1 : Verif.Decomp.ReachBy c.geo P (Verif.Decomp.addFreePoint
        (parametric (f.dec.xy (f.dec.vtx (e, false))) (f.dec.vec e) t) 0 f.dec).2 :=
      .step (o := .addPoint _ 0) hr trivial (hP _ _ (by simp) (by simp)) rfl
    refine .step (o := .splitSegment e _) hr1 ⟨he, hm, ?_⟩ (hP _ _ (by simp) (by simp)) ?_
    · simp [Verif.Decomp.addFreePoint, Verif.Decomp.upd]
    · simp only [Verif.Decomp.step, h2]
      rfl
  | attr h => exact hr

theorem prims_reach {c : Cfg K} {P : St K → Verif.Decomp.Op K → Prop} {f f' : Fr K} (h : Prims c Q f f')
    (hr : Verif.Decomp.ReachBy c.geo P f.dec) (hP : ∀ s o, (∀ p d, o ≠ .move p d) → (∀ m x y, o ≠ .joinSegments m x y) → P s o) :
    Verif.Decomp.ReachBy c.geo P f'.dec := by
  induction h with
  | refl => exact hr
  | tail _ h ih => exact prim_reach h ih hP

theorem movePoints_reach {g : Geom K} {d : K × K} {ps : List Id} : ∀ {f f' : Fr K},
    Verif.Decomp.ReachBy g (fun _ o => ∀ m x y, o ≠ .joinSegments m x y) f.dec → movePoints d ps f = .ok f' →
      Verif.Decomp.ReachBy g (fun _ o => ∀ m x y, o ≠ .joinSegments m x y) f'.dec := by
  induction ps with
  | nil => intro f f' hr h; cases h; exact hr
  | cons p ps ih =>
    intro f f' hr h
    rw [movePoints] at h
    simp only [bindOk, liftD_ok] at h
    obtain ⟨s, h1, h⟩ := h
    exact ih (f := { f with dec := s }) (.step (o := .move p d) hr trivial (by simp) h1) h

/-- **C112.** Whatever calls of the frontend are made, with whatever arguments: the decomposition is one reached by calls of
`Decomposition` with valid arguments, none of them `join_segments`. -/
theorem frontend_valid {c : Cfg K} {inf rt2 tol : K} : ∀ {os : List (Call K)} {f : Fr K},
    calls c os (init inf rt2 tol) = .ok f →
      Verif.Decomp.ReachBy c.geo (fun _ o => ∀ m x y, o ≠ .joinSegments m x y) f.dec := by
  have key : ∀ {os : List (Call K)} {f f' : Fr K}, calls c os f = .ok f' →
      Verif.Decomp.ReachBy c.geo (fun _ o => ∀ m x y, o ≠ .joinSegments m x y) f.dec →
      Verif.Decomp.ReachBy c.geo (fun _ o => ∀ m x y, o ≠ .joinSegments m x y) f'.dec := by
    intro os
    induction os with
    | nil => intro f f' h hr; cases h; exact hr
    | cons o os ih =>
      intro f f' h hr
      rw [calls] at h
      simp only [bindOk] at h
      obtain ⟨f1, h1, h⟩ := h
      refine ih h ?_
      by_cases hs : Still (fun _ => True) o
      · exact prims_reach (call_prims h1 hs) hr (fun _ _ _ h => h)
      · cases o with
        | movePoints ps d => exact movePoints_reach hr h1
        | setTolerance t => cases h1; exact hr
        | _ => exact absurd (by simp [Still]) hs
  intro os f h
  exact key h .init

end Verif.Front
