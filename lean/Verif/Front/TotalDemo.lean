import Verif.Front.TotalLine
import Verif.Front.HomeDemo

/-! A run of the frontend with valid calls. -/

namespace Verif.Front
open Verif.Decomp (St Id HE Geom segPt between Planar Tiled)
open Verif.Plane (parametric projectPoint intersection dist2)

theorem demo_nrm : NrmOk demoCfg := by
  intro v hv
  have hm : 0 < max |v.1| |v.2| := by
    rw [lt_max_iff, abs_pos, abs_pos]
    by_contra hh
    push Not at hh
    exact hv (Prod.ext hh.1 hh.2)
  have hk : 0 ≤ min |v.1| |v.2| := le_min (abs_nonneg _) (abs_nonneg _)
  have hkm : min |v.1| |v.2| ≤ max |v.1| |v.2| := min_le_max
  have he : v.1 * v.1 + v.2 * v.2 = max |v.1| |v.2| * max |v.1| |v.2| + min |v.1| |v.2| * min |v.1| |v.2| := by
    rcases le_total |v.1| |v.2| with h | h
    · rw [max_eq_right h, min_eq_left h, abs_mul_abs_self, abs_mul_abs_self]
      ring
    · rw [max_eq_left h, min_eq_right h, abs_mul_abs_self, abs_mul_abs_self]
  rw [he]
  unfold demoCfg
  dsimp only
  generalize max |v.1| |v.2| = m at *
  generalize min |v.1| |v.2| = k at *
  split
  · next h =>
    have : k = 9 / 40 * m := by linarith
    subst this
    have := mul_pos hm hm
    exact ⟨by linarith, by nlinarith⟩
  · have h1 := mul_pos hm hm
    have h2 := mul_nonneg hk (sub_nonneg.2 hkm)
    have h3 := mul_nonneg hk hk
    exact ⟨by linarith, by nlinarith⟩

/-- Test of a point to be added. -/
def addableB (f : Fr ℚ) (x : ℚ × ℚ) : Bool :=
  (decide (f.dec.pid.live ≠ []) || decide (f.pl.nBoxes = 0)) && (decide (f.dec.sid.live ≠ []) || decide (f.sl.nBoxes = 0)) &&
  (f.dec.sid.live.all fun e => decide (f.dec.vec e = sub (f.dec.xy (f.dec.vtx (e, true))) (f.dec.xy (f.dec.vtx (e, false))))) &&
  ((f.dec.pid.live.any fun p => decide (dist2 x (f.dec.xy p) < f.tol * f.tol)) ||
    f.dec.sid.live.all fun e => f.dec.sid.live.all fun e' => decide (e = e') ||
      decide ((f.dec.vec e).1 * (f.dec.vec e').2 ≠ (f.dec.vec e).2 * (f.dec.vec e').1) ||
      farB false (f.tol * f.tol) (f.dec.xy (f.dec.vtx (e, false))) (f.dec.xy (f.dec.vtx (e, true))) x ||
      farB false (f.tol * f.tol) (f.dec.xy (f.dec.vtx (e', false))) (f.dec.xy (f.dec.vtx (e', true))) x)

theorem addableB_ok {f : Fr ℚ} {x : ℚ × ℚ} (h : addableB f x = true) : Addable f x := by
  simp only [addableB, Bool.and_eq_true, Bool.or_eq_true, decide_eq_true_eq] at h
  obtain ⟨⟨⟨h1, h2⟩, h4⟩, h3⟩ := h
  refine ⟨h1, h2, h3.imp ?_ ?_⟩
  · intro h
    obtain ⟨p, hp, hn⟩ := List.any_eq_true.1 h
    rw [decide_eq_true_eq] at hn
    exact ⟨p, hp, hn⟩
  · intro h e he e' he' hee u u' u0 u1 u0' u1' hn hn'
    have hat : ∀ i ∈ f.dec.sid.live, ∀ t, at_ f i t = between (f.dec.xy (f.dec.vtx (i, false))) (f.dec.xy (f.dec.vtx (i, true))) t := by
      intro i hi t
      unfold at_
      rw [of_decide_eq_true (List.all_eq_true.1 h4 i hi)]
      rfl
    have := List.all_eq_true.1 (List.all_eq_true.1 h e he) e' he'
    simp only [Bool.or_eq_true, decide_eq_true_eq] at this
    rcases this with ((k | k) | k) | k
    · exact absurd k hee
    · exact k
    · rw [hat e he] at hn
      exact absurd hn (not_lt.2 (farB_ok k u0 u1).1)
    · rw [hat e' he'] at hn'
      exact absurd hn' (not_lt.2 (farB_ok k u0' u1').1)

def longB (x y : ℚ × ℚ) : Bool :=
  decide (demoCfg.geo.tiny < y.1 - x.1) || decide (demoCfg.geo.tiny < x.1 - y.1) || decide (demoCfg.geo.tiny < y.2 - x.2) ||
    decide (demoCfg.geo.tiny < x.2 - y.2)

theorem longB_ok {x y : ℚ × ℚ} (h : longB x y = true) : Long demoCfg.geo x y := by
  simp only [longB, Bool.or_eq_true, decide_eq_true_eq] at h
  unfold Long
  simp only [lt_abs, neg_sub]
  tauto

def wideSegsB (b : Id) : Id → List (Div ℚ) → Fr ℚ → Bool
  | a, [], f => okAnd (addSegment demoCfg a b f) fun z => wideB z.2.dec
  | a, d :: ds, f => okAnd (addSegment demoCfg a d.mid f) fun z => wideB z.2.dec && wideSegsB b d.mid ds z.2

theorem wideSegsB_ok {b : Id} : ∀ {a : Id} {ds : List (Div ℚ)} {f : Fr ℚ}, wideSegsB b a ds f = true → WideSegs demoCfg b a ds f
  | _, [], _, h => fun _ _ he => wideB_ok (okAnd_ok h he)
  | _, _ :: _, _, h => fun _ _ he => by
    have := okAnd_ok h he
    rw [Bool.and_eq_true] at this
    exact ⟨wideB_ok this.1, wideSegsB_ok this.2⟩

/-- Test of one call: points, open lines and deletions of segments. -/
def validB (f : Fr ℚ) : Call ℚ → Bool
  | .addPoint x => addableB f x
  | .addLine x y => addableB f x && okAnd (addPoint demoCfg x f) fun r => addableB r.2 y && okAnd (addPoint demoCfg y r.2) fun q =>
      openB q.2 r.1 q.1 && longB (q.2.dec.xy r.1) (q.2.dec.xy q.1) &&
      okAnd (lineIsecs demoCfg r.1 q.1 q.2) fun z => wideSegsB q.1 r.1 (z.1.insertionSort fun x y => x.t ≤ y.t) z.2
  | .deleteSegment e => decide (e ∈ f.dec.sid.live)
  | .deletePoint p => decide (p ∈ f.dec.pid.live)
  | _ => false

theorem validB_ok {f : Fr ℚ} {o : Call ℚ} (h : validB f o = true) : Valid demoCfg f o := by
  cases o with
  | addPoint x => exact addableB_ok h
  | addLine x y =>
    rw [validB, Bool.and_eq_true] at h
    refine ⟨addableB_ok h.1, fun a f1 h1 => ?_⟩
    have h2 := okAnd_ok h.2 h1
    dsimp only at h2
    rw [Bool.and_eq_true] at h2
    refine ⟨addableB_ok h2.1, fun b f2 h3 => ?_⟩
    have h4 := okAnd_ok h2.2 h3
    simp only [Bool.and_eq_true] at h4
    exact (openB_ok h4.1.1).room (fun l p h => h) (by simp) (by simp) (longB_ok h4.1.2) (fun ds g hds => wideSegsB_ok (okAnd_ok h4.2 hds)) _
  | deleteSegment e =>
    rw [validB, decide_eq_true_eq] at h
    exact h
  | deletePoint p =>
    rw [validB, decide_eq_true_eq] at h
    exact h
  | _ => cases h

def allValidB : List (Call ℚ) → Fr ℚ → Bool
  | [], _ => true
  | o :: os, f => validB f o && okAnd (call demoCfg f o) (allValidB os)

theorem allValidB_ok : ∀ {os : List (Call ℚ)} {f : Fr ℚ}, allValidB os f = true → AllValid demoCfg os f
  | [], _, _ => trivial
  | o :: os, f, h => by
    rw [allValidB, Bool.and_eq_true] at h
    exact ⟨validB_ok h.1, fun f' hf' => allValidB_ok (okAnd_ok h.2 hf')⟩

/-- The hypotheses of C166 hold for the calls of `house`. -/
theorem house_returns : AllNeat demoCfg house demo0 ∧ AllValid demoCfg house demo0 ∧
    (calls demoCfg house demo0 = .error .recursion ∨ ∃ f, calls demoCfg house demo0 = .ok f) := by
  have hV : AllValid demoCfg house demo0 := allValidB_ok (by decide +kernel)
  obtain ⟨h1, h2, h3, h4⟩ := house_neat
  exact ⟨allNeatB_ok h1, hV, calls_return Verif.Decomp.demo_arg demo_nrm (by norm_num [demoCfg, Verif.Decomp.demo])
    (by norm_num [demoCfg, Verif.Decomp.demo]) demoRange_ok h4 (by norm_num [demoCfg]) h3 (fun l p h => h) (by norm_num [demoRange]) h2
    (allNeatB_ok h1) hV⟩

/-- The hypotheses of C166 hold for calls that remove the only connection of two triangles. -/
theorem islands_returns : AllNeat demoCfg islands demo0 ∧ AllValid demoCfg islands demo0 ∧
    (calls demoCfg islands demo0 = .error .recursion ∨ ∃ f, calls demoCfg islands demo0 = .ok f) := by
  have hV : AllValid demoCfg islands demo0 := allValidB_ok (by decide +kernel)
  obtain ⟨_, _, h3, h4⟩ := house_neat
  obtain ⟨h1, h2⟩ := islands_neat
  exact ⟨allNeatB_ok h1, hV, calls_return Verif.Decomp.demo_arg demo_nrm (by norm_num [demoCfg, Verif.Decomp.demo])
    (by norm_num [demoCfg, Verif.Decomp.demo]) demoRange_ok h4 (by norm_num [demoCfg]) h3 (fun l p h => h) (by norm_num [demoRange]) h2
    (allNeatB_ok h1) hV⟩

end Verif.Front
