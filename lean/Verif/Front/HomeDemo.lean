import Verif.Front.Home
import Verif.Front.PlanDemo
import Verif.Plane.TilingDemo

/-! A run of the frontend that is neat, with three polygons. -/

namespace Verif.Front
open Verif.Decomp (St Id HE Geom segPt between Planar Tiled)
open Verif.Plane (parametric projectPoint intersection dist2)

/-- The distance from `x` to the segment is at least the root of `d`, or more than it. -/
def farB (strict : Bool) (d : ℚ) (o y x : ℚ × ℚ) : Bool :=
  match projectPoint (sub y o) o x with
  | .ok t => if strict then decide (d < dist2 x (parametric o (sub y o) t)) else decide (d ≤ dist2 x (parametric o (sub y o) t))
  | .error _ => false

theorem farB_ok {strict : Bool} {d : ℚ} {o y x : ℚ × ℚ} (h : farB strict d o y x = true) {u : ℚ} (u0 : 0 ≤ u) (u1 : u ≤ 1) :
    d ≤ dist2 x (between o y u) ∧ (strict = true → d < dist2 x (between o y u)) := by
  unfold farB at h
  split at h
  · next t ht =>
    obtain ⟨_, _, hmin⟩ := Verif.Plane.project_nearest ht
    have hle : dist2 x (parametric o (sub y o) t) ≤ dist2 x (between o y u) := by
      by_cases hut : u = t
      · subst hut; exact le_refl _
      · exact (hmin u u0 u1 hut).le
    cases strict
    · simp only [Bool.false_eq_true, if_false, decide_eq_true_eq] at h
      exact ⟨h.trans hle, fun hh => by cases hh⟩
    · simp only [if_true, decide_eq_true_eq] at h
      exact ⟨h.le.trans hle, fun _ => lt_of_lt_of_le h hle⟩
  · cases h

def wideB (s : St ℚ) : Bool := s.sid.live.all fun e => s.sid.live.all fun e' => decide (e' = e) ||
  farB true (demoCfg.geo.eps * demoCfg.geo.eps * dist2 (s.xy (s.vtx (e, false))) (s.xy (s.vtx (e, true))))
    (s.xy (s.vtx (e', false))) (s.xy (s.vtx (e', true))) (segPt s e (1 / 2))

theorem wideB_ok {s : St ℚ} (h : wideB s = true) : Wide demoCfg s := by
  intro e he e' he' hne u u0 u1
  have := List.all_eq_true.1 (List.all_eq_true.1 h e he) e' he'
  rw [Bool.or_eq_true] at this
  exact (farB_ok (this.resolve_left fun k => hne (of_decide_eq_true k)) u0 u1).2 rfl

/-- The crossing of the line with a segment. -/
def isecOf (f : Fr ℚ) (a b e : Id) : Option (ℚ × ℚ) :=
  intersection demoCfg.eps (f.dec.xy (f.dec.vtx (e, false))) (f.dec.vec e) (f.dec.xy a) (f.dec.xy b)

def openB (f : Fr ℚ) (a b : Id) : Bool :=
  (f.dec.sid.live.all fun e => [false, true].all fun v => decide (f.dec.vtx (e, v) = a) || decide (f.dec.vtx (e, v) = b) ||
    farB false (f.tol * f.tol) (f.dec.xy a) (f.dec.xy b) (f.dec.xy (f.dec.vtx (e, v)))) &&
  (f.dec.sid.live.all fun e => f.dec.sid.live.all fun e' => decide (e = e') ||
    match isecOf f a b e, isecOf f a b e' with
    | some t, some t' => decide (f.tol * f.tol ≤ dist2 (lineAt f a b t.2) (lineAt f a b t'.2))
    | _, _ => true) &&
  (f.dec.sid.live.all fun e => match isecOf f a b e with
    | some t => decide (f.tol * f.tol ≤ dist2 (f.dec.xy a) (lineAt f a b t.2))
    | none => true) &&
  (f.dec.pid.live.all fun p => decide (p = a) || decide (p = b) || Verif.Decomp.offSegB (f.dec.xy a) (f.dec.xy b) (f.dec.xy p)) &&
  f.dec.sid.live.all fun e => [a, b].all fun p => decide (f.dec.vtx (e, false) = p) || decide (f.dec.vtx (e, true) = p) ||
    farB false (f.tol * f.tol) (f.dec.xy (f.dec.vtx (e, false))) (f.dec.xy (f.dec.vtx (e, true))) (f.dec.xy p)

theorem openB_ok {f : Fr ℚ} {a b : Id} (h : openB f a b = true) : Open demoCfg f a b := by
  simp only [openB, Bool.and_eq_true] at h
  obtain ⟨⟨⟨⟨h1, h2⟩, h3⟩, h4⟩, h5⟩ := h
  refine ⟨⟨?_, ?_, ?_⟩, ?_, ?_⟩
  · intro e he v va vb s s0 s1
    have := List.all_eq_true.1 (List.all_eq_true.1 h1 e he) v (by cases v <;> simp)
    simp only [Bool.or_eq_true, decide_eq_true_eq] at this
    rcases this with (k | k) | k
    · exact absurd k va
    · exact absurd k vb
    · exact (farB_ok k s0 s1).1
  · rintro e e' t t' ⟨he, ht⟩ ⟨he', ht'⟩ hne
    have := List.all_eq_true.1 (List.all_eq_true.1 h2 e he) e' he'
    rw [Bool.or_eq_true] at this
    have k := this.resolve_left fun k => hne (of_decide_eq_true k)
    unfold isecOf at k
    rw [ht, ht'] at k
    exact of_decide_eq_true k
  · rintro e t ⟨he, ht⟩
    have k := List.all_eq_true.1 h3 e he
    unfold isecOf at k
    rw [ht] at k
    exact of_decide_eq_true k
  · intro p hp pa pb s s0 s1 hx
    have := List.all_eq_true.1 h4 p hp
    simp only [Bool.or_eq_true, decide_eq_true_eq] at this
    rcases this with (k | k) | k
    · exact pa k
    · exact pb k
    · exact Verif.Decomp.offSegB_ok k ⟨s, s0, s1, hx⟩
  · intro e he p hp hv u u0 u1
    have := List.all_eq_true.1 (List.all_eq_true.1 h5 e he) p (by rcases hp with rfl | rfl <;> simp)
    simp only [Bool.or_eq_true, decide_eq_true_eq] at this
    rcases this with (k | k) | k
    · exact absurd k (hv false)
    · exact absurd k (hv true)
    · exact (farB_ok k u0 u1).1

/-- An open line is fair if the drawing is wide after it. -/
theorem Open.fair {f : Fr ℚ} {a b : Id} {om : List Id} (ha : a ∈ om) (hb : b ∈ om) (h : Open demoCfg f a b) :
    ∀ {n : Nat}, (∀ l f', addLinePts demoCfg n a b om f = .ok (l, f') → Wide demoCfg f'.dec) → Fair demoCfg n a b om f
  | 0, _ => trivial
  | n + 1, hw => by
    intro x cs hx hcs
    refine ⟨fun p hp => ?_, fun _ => hw⟩
    exfalso
    obtain ⟨hp, t, h0, h1, hn⟩ := snapTo_some hp
    obtain ⟨hom, e, he, v, hv⟩ := candidatePts_mem (fun l p h => h) hcs hp
    have := h.ends e he v (by rw [hv]; rintro rfl; exact hom ha) (by rw [hv]; rintro rfl; exact hom hb) t h0 h1
    rw [hv] at this
    exact absurd hn (not_lt.2 this)

def noBridgeB (s : St ℚ) (e : Id) : Bool :=
  decide (s.wire (e, true) ≠ s.wire (e, false)) || decide (s.next (e, true) = some (e, false)) || decide (s.next (e, false) = some (e, true)) ||
    (wideB s && s.qid.live.all fun q => decide (s.wire (e, true) ≠ some (s.outer q)))

theorem noBridgeB_ok {s : St ℚ} {e : Id} (h : noBridgeB s e = true) : NoBridge demoCfg s e := by
  simp only [noBridgeB, Bool.or_eq_true, Bool.and_eq_true, List.all_eq_true, decide_eq_true_eq] at h
  intro hh
  rcases h with ((k | k) | k) | k
  · exact absurd hh k
  · exact Or.inl ⟨true, k⟩
  · exact Or.inl ⟨false, k⟩
  · exact Or.inr ⟨wideB_ok k.1, k.2⟩

/-- Test of the state after a call that must not fail. -/
def okAnd {α β : Type} (x : Except α β) (t : β → Bool) : Bool :=
  match x with
  | .ok r => t r
  | .error _ => false

theorem okAnd_ok {α β : Type} {x : Except α β} {t : β → Bool} (h : okAnd x t = true) {r : β} (hr : x = .ok r) : t r = true := by
  subst hr
  exact h

/-- Test of one call: points, open lines and deletions of segments. -/
def neatB (f : Fr ℚ) : Call ℚ → Bool
  | .addPoint _ => true
  | .addLine x y => okAnd (addPoint demoCfg x f) fun r => okAnd (addPoint demoCfg y r.2) fun q => openB q.2 r.1 q.1 &&
      okAnd (addLinePts demoCfg demoCfg.depth r.1 q.1 [r.1, q.1] q.2) fun z => wideB z.2.dec
  | .deleteSegment e => noBridgeB f.dec e
  | _ => false

theorem neatB_ok {f : Fr ℚ} {o : Call ℚ} (h : neatB f o = true) : Tidy demoCfg f o ∧ Neat demoCfg f o := by
  cases o with
  | addPoint x => exact ⟨trivial, trivial⟩
  | addLine x y =>
    have key : ∀ a f1 b f2, addPoint demoCfg x f = .ok (a, f1) → addPoint demoCfg y f1 = .ok (b, f2) → Open demoCfg f2 a b ∧
        ∀ l f', addLinePts demoCfg demoCfg.depth a b [a, b] f2 = .ok (l, f') → Wide demoCfg f'.dec := by
      intro a f1 b f2 h1 h2
      have := okAnd_ok (okAnd_ok h h1) h2
      dsimp only at this
      rw [Bool.and_eq_true] at this
      exact ⟨openB_ok this.1, fun l f' hl => wideB_ok (okAnd_ok this.2 hl)⟩
    exact ⟨fun a f1 b f2 h1 h2 => (key a f1 b f2 h1 h2).1.plain (fun l p h => h) (by simp) (by simp),
      fun a f1 b f2 h1 h2 => (key a f1 b f2 h1 h2).1.fair (by simp) (by simp) (key a f1 b f2 h1 h2).2⟩
  | deleteSegment e => exact ⟨trivial, noBridgeB_ok h⟩
  | _ => cases h

def allNeatB : List (Call ℚ) → Fr ℚ → Bool
  | [], _ => true
  | o :: os, f => neatB f o && okAnd (call demoCfg f o) (allNeatB os)

theorem allNeatB_ok : ∀ {os : List (Call ℚ)} {f : Fr ℚ}, allNeatB os f = true → AllNeat demoCfg os f
  | [], _, _ => trivial
  | o :: os, f, h => by
    rw [allNeatB, Bool.and_eq_true] at h
    exact ⟨neatB_ok h.1, fun f' hf' => allNeatB_ok (okAnd_ok h.2 hf')⟩

/-- A rectangle that is crossed by a line, with points in both halves, a piece of the line removed again and a point outside. -/
def house : List (Call ℚ) :=
  [.addLine (0, 0) (20, 0), .addLine (20, 0) (20, 10), .addLine (20, 10) (0, 10), .addLine (0, 10) (0, 0), .addPoint (5, 5),
    .addLine (10, -5) (10, 15), .addPoint (15, 5), .addPoint (12, 0), .addPoint (30, 5), .deleteSegment 5, .addPoint (30, 15)]

theorem house_neat : allNeatB house demo0 = true ∧ (∀ o ∈ house, Fits demoRange o) ∧
    demoCfg.eps * demoCfg.eps * (8 * (demoRange.C * demoRange.C)) < demoRange.m * demoRange.m ∧
    2 * (demoCfg.geo.tiny * demoCfg.geo.tiny) < demoRange.m * demoRange.m := by
  decide +kernel

/-- A tested run keeps the polygons right. -/
theorem neat_run {os : List (Call ℚ)} (h : allNeatB os demo0 = true) (ho : ∀ o ∈ os, Fits demoRange o) {t : Fr ℚ → Bool}
    (ht : after os t = true) : ∃ f, calls demoCfg os demo0 = .ok f ∧ Good demoCfg demoRange f ∧ Tiled demoCfg.geo f.dec ∧ t f = true := by
  obtain ⟨f, hf, h1⟩ := after_ok ht
  obtain ⟨_, _, h3, _⟩ := house_neat
  obtain ⟨h4, h5⟩ := calls_tiled Verif.Decomp.demo_arg (by norm_num [demoCfg, Verif.Decomp.demo]) demoRange_ok (by norm_num [demoCfg]) h3
    (fun l p h => h) (init_good (by norm_num [demoRange])) ho (allNeatB_ok h) Verif.Decomp.init_tiled hf
  exact ⟨f, hf, h4, h5, h1⟩

/-- The hypotheses of C163 and C164 hold for this run. Before the last two calls there are three polygons, and the points 4 and 9
are free in two of them; the deletion opens one of the polygons, and then the point 4 is outside. -/
theorem house_case : (∃ f, calls demoCfg (house.take 9) demo0 = .ok f ∧ Good demoCfg demoRange f ∧ Tiled demoCfg.geo f.dec ∧
      f.dec.qid.live = [0, 1, 2] ∧ f.dec.pseg 4 = none ∧ f.dec.ppoly 4 = some 2 ∧ f.dec.pseg 9 = none ∧ f.dec.ppoly 9 = some 1) ∧
    ∃ f, calls demoCfg house demo0 = .ok f ∧ Good demoCfg demoRange f ∧ Tiled demoCfg.geo f.dec ∧ f.dec.qid.live = [0, 1] ∧
      f.dec.pseg 4 = none ∧ f.dec.ppoly 4 = some 0 ∧ f.dec.pseg 9 = none ∧ f.dec.ppoly 9 = some 1 := by
  obtain ⟨f, h1, h2, h3, h4⟩ := neat_run (os := house.take 9) (t := fun f => decide (f.dec.qid.live = [0, 1, 2] ∧ f.dec.pseg 4 = none ∧
    f.dec.ppoly 4 = some 2 ∧ f.dec.pseg 9 = none ∧ f.dec.ppoly 9 = some 1)) (by decide +kernel) (by decide +kernel) (by decide +kernel)
  obtain ⟨f', h1', h2', h3', h4'⟩ := neat_run (os := house) (t := fun f => decide (f.dec.qid.live = [0, 1] ∧ f.dec.pseg 4 = none ∧
    f.dec.ppoly 4 = some 0 ∧ f.dec.pseg 9 = none ∧ f.dec.ppoly 9 = some 1)) house_neat.1 house_neat.2.1 (by decide +kernel)
  exact ⟨⟨f, h1, h2, h3, of_decide_eq_true h4⟩, f', h1', h2', h3', of_decide_eq_true h4'⟩

/-- Two triangles with a connection that is removed again, and a point where it was. -/
def islands : List (Call ℚ) :=
  [.addLine (0, 0) (4, 0), .addLine (4, 0) (0, 4), .addLine (0, 4) (0, 0), .addLine (10, 2) (14, 2), .addLine (14, 2) (14, 6),
    .addLine (14, 6) (10, 2), .addLine (4, 0) (10, 2), .deleteSegment 6, .addPoint (7, 1)]

theorem islands_neat : allNeatB islands demo0 = true ∧ ∀ o ∈ islands, Fits demoRange o := by
  decide +kernel

/-- The hypotheses of C163 hold for a run that removes the only connection of two parts: before, both sides of the segment 6 are on one
wire inside polygon 0 and it has no free end; after, the triangles have the wires 1 and 5 in polygon 0. -/
theorem islands_case : (∃ f, calls demoCfg (islands.take 7) demo0 = .ok f ∧ Tiled demoCfg.geo f.dec ∧ f.dec.wid.live.length = 4 ∧
      f.dec.wire (6, true) = f.dec.wire (6, false) ∧ f.dec.next (6, true) ≠ some (6, false) ∧ f.dec.next (6, false) ≠ some (6, true)) ∧
    ∃ f, calls demoCfg islands demo0 = .ok f ∧ Good demoCfg demoRange f ∧ Tiled demoCfg.geo f.dec ∧ f.dec.wid.live.length = 5 ∧
      f.dec.qid.live.length = 3 ∧ f.dec.pseg 6 = none ∧ f.dec.ppoly 6 = some 0 := by
  obtain ⟨f, h1, _, h3, h4⟩ := neat_run (os := islands.take 7) (t := fun f => decide (f.dec.wid.live.length = 4 ∧
    f.dec.wire (6, true) = f.dec.wire (6, false) ∧ f.dec.next (6, true) ≠ some (6, false) ∧ f.dec.next (6, false) ≠ some (6, true)))
    (by decide +kernel) (by decide +kernel) (by decide +kernel)
  obtain ⟨f', h1', h2', h3', h4'⟩ := neat_run (os := islands) (t := fun f => decide (f.dec.wid.live.length = 5 ∧
    f.dec.qid.live.length = 3 ∧ f.dec.pseg 6 = none ∧ f.dec.ppoly 6 = some 0)) islands_neat.1 islands_neat.2 (by decide +kernel)
  exact ⟨⟨f, h1, h3, of_decide_eq_true h4⟩, f', h1', h2', h3', of_decide_eq_true h4'⟩

end Verif.Front
