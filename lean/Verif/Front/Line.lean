import Verif.Front.Snap
import Verif.Decomp.Planar
import Mathlib.Data.List.Dedup

/-! How `add_line_for_points` divides the line and the segments it crosses. -/

namespace Verif.Front
open Verif.Decomp (St Id HE Geom segPt)
open Verif.Plane (parametric projectPoint intersection dist2)
open Verif.Aabb (Box Lookup stored)

variable {K : Type} [Field K] [LinearOrder K]

/-- The segments join the points one after another: the first one `a` with the first of the list, and so on. -/
inductive Joined (s : St K) : Id → List Id → List Id → Prop
  | nil (a : Id) : Joined s a [] []
  | cons {a p e : Id} {ps es : List Id} (v : Bool) : e ∈ s.sid.live → s.vtx (e, v) = a → s.vtx (e, !v) = p →
      Joined s p ps es → Joined s a (p :: ps) (e :: es)

theorem Joined.mono {s s' : St K} (h : ∀ e ∈ s.sid.live, e ∈ s'.sid.live ∧ ∀ v, s'.vtx (e, v) = s.vtx (e, v)) {a : Id}
    {ps es : List Id} (hj : Joined s a ps es) : Joined s' a ps es := by
  induction hj with
  | nil a => exact .nil a
  | cons v he h1 h2 _ ih => exact .cons v (h _ he).1 (((h _ he).2 v).trans h1) (((h _ he).2 (!v)).trans h2) ih

variable [IsStrictOrderedRing K]

/-- The segment `e` of the state crosses the line from `a` to `b` in the parameters `t`. -/
def Crosses (c : Cfg K) (f : Fr K) (a b e : Id) (t : K × K) : Prop :=
  e ∈ f.dec.sid.live ∧ intersection c.eps (f.dec.xy (f.dec.vtx (e, false))) (f.dec.vec e) (f.dec.xy a) (f.dec.xy b) = some t

/-- The point of the line from `a` to `b` with the parameter `t`. -/
def lineAt (f : Fr K) (a b : Id) (t : K) : K × K := parametric (f.dec.xy a) (sub (f.dec.xy b) (f.dec.xy a)) t

/-! ### One new segment -/

theorem addSegment_joins {c : Cfg K} {r : Range K} {f f' : Fr K} (hG : Good c r f) {a b e : Id}
    (h : addSegment c a b f = .ok (e, f')) :
    (∀ e' ∈ f.dec.sid.live, e' ∈ f'.dec.sid.live ∧ ∀ v, f'.dec.vtx (e', v) = f.dec.vtx (e', v)) ∧ f'.dec.xy = f.dec.xy ∧
      f'.dec.pid = f.dec.pid ∧ f'.tol = f.tol ∧ e ∈ f'.dec.sid.live ∧ ∃ v, f'.dec.vtx (e, v) = a ∧ f'.dec.vtx (e, !v) = b := by
  have hI := hG.reach.reach.inv
  simp only [Front.addSegment, bindOk, liftD_ok, key_ok] at h
  obtain ⟨_, ha, _, hb, ⟨e, s'⟩, h1, x, hx, h⟩ := h
  cases h
  rcases newSegment_objects h1 hI ha hb with ⟨hf, hA⟩ | ⟨hf, rfl, v, v1, v2⟩
  · refine ⟨fun e' he' => ⟨(hA.live e').2 (Or.inl he'), fun v => hA.vo (e', v) (ne_of_mem_of_not_mem he' hf)⟩, hA.xy, hA.pid, rfl,
      (hA.live e).2 (Or.inr rfl), false, hA.v0, hA.v1⟩
  · exact ⟨fun e' he' => ⟨he', fun v => rfl⟩, rfl, rfl, rfl, hf, v, v1, v2⟩

/-- The points of the division in turn are not merged. -/
def Apart (f : Fr K) : Id → List Id → Prop
  | _, [] => True
  | a, p :: ps => a ≠ p ∧ ¬ normLt (dist2 (f.dec.xy a) (f.dec.xy p)) f.tol ∧ Apart f p ps

theorem Apart.congr {f f' : Fr K} (h1 : f'.dec.xy = f.dec.xy) (h2 : f'.tol = f.tol) : ∀ {ps : List Id} {a : Id},
    Apart f a ps → Apart f' a ps
  | [], _, _ => trivial
  | p :: ps, a, ⟨h3, h4, h5⟩ => ⟨h3, by rw [h1, h2]; exact h4, Apart.congr h1 h2 h5⟩

theorem newSegs_joins {c : Cfg K} {r : Range K} (hm : 0 < r.m) {b : Id} : ∀ {ds : List (Div K)} {a : Id} {f f' : Fr K}
    {l : List Id}, Good c r f → newSegs c b a ds f = .ok (l, f') → Apart f a (ds.map Div.mid) →
    (ds.map Div.mid ++ [b]).getLast? ≠ (a :: ds.map Div.mid).getLast? →
      Joined f'.dec a (ds.map Div.mid ++ [b]) l ∧ f'.dec.xy = f.dec.xy ∧ f'.dec.pid = f.dec.pid ∧
      ∀ e' ∈ f.dec.sid.live, e' ∈ f'.dec.sid.live ∧ ∀ v, f'.dec.vtx (e', v) = f.dec.vtx (e', v)
  | [], a, f, f', l, hG, h, _, hb => by
    simp only [List.map_nil, List.nil_append, List.getLast?_singleton, ne_eq, Option.some.injEq] at hb
    rw [newSegs, if_pos (fun hh => hb hh.symm)] at h
    simp only [bindOk] at h
    obtain ⟨⟨e, f1⟩, h1, h⟩ := h
    cases h
    obtain ⟨g1, g2, g3, _, g5, v, g6, g7⟩ := addSegment_joins hG h1
    exact ⟨.cons v g5 g6 g7 (.nil b), g2, g3, g1⟩
  | d :: ds, a, f, f', l, hG, h, hap, hb => by
    obtain ⟨h1, h2, h3⟩ := hap
    rw [newSegs, if_neg h1, if_neg h2] at h
    simp only [bindOk] at h
    obtain ⟨⟨e, f1⟩, ha, ⟨l', f2⟩, hn, h⟩ := h
    cases h
    obtain ⟨g1, g2, g3, g4, g5, v, g6, g7⟩ := addSegment_joins hG ha
    have hG1 := prims_good hm (.single (.addSegment ha)) hG
    obtain ⟨k1, k2, k3, k4⟩ := newSegs_joins hm hG1 hn (h3.congr g2 g4) (by
      simpa [List.getLast?_append, List.getLast?_cons] using hb)
    refine ⟨.cons v (k4 e g5).1 (((k4 e g5).2 v).trans g6) (((k4 e g5).2 (!v)).trans g7) k1, k2.trans g2, k3.trans g3, ?_⟩
    intro e' he'
    exact ⟨(k4 e' (g1 e' he').1).1, fun w => ((k4 e' (g1 e' he').1).2 w).trans ((g1 e' he').2 w)⟩

/-! ### The crossings -/

/-- The division of one segment in a parameter far from both ends. -/
theorem pointOnSegment_split {c : Cfg K} {r : Range K} (hm : 0 < r.m) {f f' : Fr K} (hG : Good c r f) {e : Id}
    (he : e ∈ f.dec.sid.live) {t : K} {m : Id × Id} (h : pointOnSegment e t f = .ok (m, f'))
    (h0 : ¬ scaledLt t (dot (f.dec.vec e) (f.dec.vec e)) f.tol) (h1 : ¬ scaledLt (1 - t) (dot (f.dec.vec e) (f.dec.vec e)) f.tol) :
    Good c r f' ∧ f'.tol = f.tol ∧ m.1 ∉ f.dec.pid.live ∧ m.2 ∉ f.dec.sid.live ∧
      (∀ i, i ∈ f'.dec.pid.live ↔ i = m.1 ∨ i ∈ f.dec.pid.live) ∧ (∀ i ∈ f.dec.pid.live, f'.dec.xy i = f.dec.xy i) ∧
      f'.dec.xy m.1 = at_ f e t ∧ (∀ i, i ∈ f'.dec.sid.live ↔ i = m.2 ∨ i ∈ f.dec.sid.live) ∧
      (∀ i ∈ f.dec.sid.live, i ≠ e → f'.dec.vec i = f.dec.vec i ∧ ∀ v, f'.dec.vtx (i, v) = f.dec.vtx (i, v)) ∧
      f'.dec.vtx (e, false) = f.dec.vtx (e, false) ∧ f'.dec.vtx (e, true) = m.1 ∧ f'.dec.vtx (m.2, false) = m.1 ∧
      f'.dec.vtx (m.2, true) = f.dec.vtx (e, true) := by
  have hG' := prims_good hm (pointOnSegment_prims (c := c) h) hG
  obtain ⟨po, so, hM⟩ := hG.mirror
  have ht : 0 < f.tol := lt_of_lt_of_le hm hM.tol.1
  have hI := hG.reach.reach.inv
  have hV := Verif.Decomp.vectors_exact_partial hG.reach
  unfold pointOnSegment at h
  dsimp only at h
  rw [if_neg h0, if_neg h1] at h
  simp only [bindOk] at h
  obtain ⟨⟨mid, f1⟩, ha, ⟨n', f2'⟩, hs2, h⟩ := h
  cases h
  obtain ⟨t0, q0⟩ := not_scaledLt ht h0
  obtain ⟨t1, q1⟩ := not_scaledLt ht h1
  have hmb : Bounded r.C (parametric (f.dec.xy (f.dec.vtx (e, false))) (f.dec.vec e) t) := by
    rw [hV e he]
    exact (hM.pin _ (hI.links.vlive (e, false) he)).segment (hM.pin _ (hI.links.vlive (e, true) he)) t0.le (by linarith)
  obtain ⟨hfr, ⟨b, hM1⟩, hxy1, hvt1, hs1, hps1, hpl1, htol1, hvec1⟩ := addPt_mirror hm ha hI hM hmb
  have hI1 : Verif.Decomp.Inv f1.dec := by
    have ha' := ha
    simp only [Front.addPt, bindOk] at ha'
    obtain ⟨_, _, b, _, ha'⟩ := ha'
    cases ha'
    exact Verif.Decomp.addFreePoint_inv hI
  have hlive1 : ∀ i, i ∈ f1.dec.pid.live ↔ i = mid ∨ i ∈ f.dec.pid.live := by
    simp only [Front.addPt, bindOk] at ha
    obtain ⟨_, _, b, _, ha⟩ := ha
    cases ha
    intro i
    change i ∈ f.dec.pid.append.2.live ↔ _
    rw [(Verif.Decomp.Ids.append_ok hI.pids).2.1, List.mem_append, List.mem_singleton]
    tauto
  simp only [Front.splitSegment, bindOk, liftD_ok, key_ok] at hs2
  obtain ⟨_, he1, _, hmid, ⟨n, s'⟩, h2, x', _, hs2⟩ := hs2
  cases hs2
  obtain ⟨hL2, _, hS⟩ := Verif.Decomp.splitSegment_eff h2 hI1.links he1 hmid hps1 hI1.free (by simp)
  have hen : e ≠ n := ne_of_mem_of_not_mem he1 hS.fresh
  refine ⟨hG', htol1, hfr, by rw [← hs1]; exact hS.fresh, ?_, ?_, ?_, ?_, ?_, ?_, hS.ve, hS.vn0, ?_⟩
  · intro i; dsimp only; rw [hS.pid]; exact hlive1 i
  · intro i hi; dsimp only
    rw [hS.xy, hxy1, Function.update_of_ne (ne_of_mem_of_not_mem hi hfr)]
  · dsimp only; rw [hS.xy, hxy1, Function.update_self]; rfl
  · intro i; dsimp only; rw [hS.live, hs1]; tauto
  · intro i hi hie
    have hin : i ≠ n := ne_of_mem_of_not_mem (hs1 ▸ hi) hS.fresh
    refine ⟨?_, fun v => ?_⟩
    · dsimp only; rw [hS.vec]; simp only [Verif.Decomp.upd, Function.update_of_ne hie, Function.update_of_ne hin]; rw [hvec1]
    · dsimp only; rw [hS.vo (i, v) (by simp [hie]) hin, hvt1]
  · dsimp only; rw [hS.vo (e, false) (by simp) hen, hvt1]
  · dsimp only; rw [hS.vn1, hvt1]

theorem setDiv_mem {d : Div K} : ∀ {l : List (Div K)}, (∀ x ∈ l, x.t ≠ d.t) → setDiv d l = l ++ [d]
  | [], _ => rfl
  | x :: l, h => by
    rw [setDiv, if_neg (h x (by simp)), setDiv_mem (fun y hy => h y (by simp [hy]))]
    rfl

/-- Conditions under which the line from `a` to `b` is divided without merging and snapping: the ends of all other segments and
the crossings are far enough. -/
structure Clear (c : Cfg K) (f : Fr K) (a b : Id) : Prop where
  /-- Ends of segments, other than `a` and `b`, are not nearer to the line than the tolerance. -/
  ends : ∀ e ∈ f.dec.sid.live, ∀ v, f.dec.vtx (e, v) ≠ a → f.dec.vtx (e, v) ≠ b → ∀ s, 0 ≤ s → s ≤ 1 →
    f.tol * f.tol ≤ dist2 (f.dec.xy (f.dec.vtx (e, v))) (lineAt f a b s)
  /-- Two crossings are not nearer than the tolerance. -/
  two : ∀ e e' t t', Crosses c f a b e t → Crosses c f a b e' t' → e ≠ e' →
    f.tol * f.tol ≤ dist2 (lineAt f a b t.2) (lineAt f a b t'.2)
  /-- Neither are the start and a crossing. -/
  start : ∀ e t, Crosses c f a b e t → f.tol * f.tol ≤ dist2 (f.dec.xy a) (lineAt f a b t.2)

theorem crosses_iff {c : Cfg K} {f : Fr K} {a b e : Id} {t : K × K} : Crosses c f a b e t ↔ e ∈ f.dec.sid.live ∧
    ¬ Verif.Plane.Parallel (f.dec.vec e) (sub (f.dec.xy b) (f.dec.xy a)) ∧ at_ f e t.1 = lineAt f a b t.2 ∧
    Verif.Plane.Within c.eps t := by
  unfold Crosses
  rw [Verif.Plane.intersection_iff]
  rfl

theorem parametric_parallel {v w o o' : K × K} {s t s' t' : K} (h : parametric o v s = parametric o' w t)
    (h' : parametric o v s' = parametric o' w t') (hp : ¬ Verif.Plane.Parallel v w) : s = s' ∧ t = t' := by
  simp only [parametric, Prod.mk.injEq] at h h'
  unfold Verif.Plane.Parallel at hp
  have hd : v.1 * w.2 - v.2 * w.1 ≠ 0 := sub_ne_zero.2 hp
  constructor
  · have : (v.1 * w.2 - v.2 * w.1) * (s - s') = 0 := by linear_combination w.2 * (h.1 - h'.1) - w.1 * (h.2 - h'.2)
    exact sub_eq_zero.1 ((mul_eq_zero.1 this).resolve_left hd)
  · have : (v.1 * w.2 - v.2 * w.1) * (t - t') = 0 := by linear_combination v.2 * (h.1 - h'.1) - v.1 * (h.2 - h'.2)
    exact sub_eq_zero.1 ((mul_eq_zero.1 this).resolve_left hd)

theorem not_scaledLt_of {t q c : K} (ht : 0 < t) (hc : 0 < c) (h : c * c ≤ t * t * q) : ¬ scaledLt t q c := by
  unfold scaledLt
  rw [if_pos hc]
  push Not
  exact ⟨ht, h⟩

/-- A crossing of a clear line is far from the ends of the segment. -/
theorem Clear.inner {c : Cfg K} {r : Range K} {f : Fr K} (hG : Good c r f) (hm : 0 < r.m) (heps : 0 ≤ c.eps) {a b : Id}
    (hc : Clear c f a b) {e : Id} {t : K × K} (h : Crosses c f a b e t) :
    ¬ scaledLt t.1 (dot (f.dec.vec e) (f.dec.vec e)) f.tol ∧ ¬ scaledLt (1 - t.1) (dot (f.dec.vec e) (f.dec.vec e)) f.tol := by
  obtain ⟨po, so, hM⟩ := hG.mirror
  have ht : 0 < f.tol := lt_of_lt_of_le hm hM.tol.1
  have hV := Verif.Decomp.vectors_exact_partial hG.reach
  obtain ⟨he, hpar, hat, ⟨w1, w2⟩, w3, w4⟩ := crosses_iff.1 h
  have e0 : at_ f e 0 = f.dec.xy (f.dec.vtx (e, false)) := by simp [at_, parametric]
  have e1 : at_ f e 1 = f.dec.xy (f.dec.vtx (e, true)) := by unfold at_; rw [hV e he]; simp [parametric]
  have la : lineAt f a b 0 = f.dec.xy a := by simp [lineAt, parametric]
  have lb : lineAt f a b 1 = f.dec.xy b := by simp [lineAt, parametric, sub]
  have hend : ∀ (u : K) (v : Bool), at_ f e u = f.dec.xy (f.dec.vtx (e, v)) → f.dec.vtx (e, v) ≠ a ∧ f.dec.vtx (e, v) ≠ b := by
    intro u v hu
    constructor
    · intro hh
      rw [hh, ← la] at hu
      have := (parametric_parallel hu hat hpar).2
      linarith
    · intro hh
      rw [hh, ← lb] at hu
      have := (parametric_parallel hu hat hpar).2
      linarith
  have hs0 : 0 ≤ t.2 := by linarith
  have hs1 : t.2 ≤ 1 := by linarith
  constructor
  · refine not_scaledLt_of (by linarith) ht ?_
    have := hc.ends e he false (hend 0 false e0).1 (hend 0 false e0).2 t.2 hs0 hs1
    rw [← hat, ← e0] at this
    refine this.trans (le_of_eq ?_)
    simp only [dist2, at_, parametric, dot]; ring
  · refine not_scaledLt_of (by linarith) ht ?_
    have := hc.ends e he true (hend 1 true e1).1 (hend 1 true e1).2 t.2 hs0 hs1
    rw [← hat, ← e1] at this
    refine this.trans (le_of_eq ?_)
    simp only [dist2, at_, parametric, dot]; ring

/-- A segment that crosses the line is divided in the crossing. -/
def Divided (f f' : Fr K) (a b e : Id) (t : K × K) : Prop :=
  ∃ p n, p ∉ f.dec.pid.live ∧ n ∉ f.dec.sid.live ∧ p ∈ f'.dec.pid.live ∧ n ∈ f'.dec.sid.live ∧
    f'.dec.xy p = lineAt f a b t.2 ∧ f'.dec.vtx (e, false) = f.dec.vtx (e, false) ∧ f'.dec.vtx (e, true) = p ∧
    f'.dec.vtx (n, false) = p ∧ f'.dec.vtx (n, true) = f.dec.vtx (e, true)

theorem at_seg {c : Cfg K} {r : Range K} {f : Fr K} (hG : Good c r f) {e : Id} (he : e ∈ f.dec.sid.live) (t : K) :
    at_ f e t = segPt f.dec e t := by
  unfold at_
  rw [Verif.Decomp.vectors_exact_partial hG.reach e he]
  rfl

/-- Both parts of a divided segment are parts of it. -/
theorem split_parts {s s' : St K} (hL : Verif.Decomp.Links s ∅ ∅) {e n m : Id} {t : K} (he : e ∈ s.sid.live) (t0 : 0 < t) (t1 : t < 1)
    (hx : ∀ q ∈ s.pid.live, s'.xy q = s.xy q) (hxm : s'.xy m = segPt s e t) (hs : ∀ i, i ∈ s'.sid.live ↔ i = n ∨ i ∈ s.sid.live)
    (ho : ∀ i ∈ s.sid.live, i ≠ e → ∀ v, s'.vtx (i, v) = s.vtx (i, v)) (he0 : s'.vtx (e, false) = s.vtx (e, false))
    (he1 : s'.vtx (e, true) = m) (hn0 : s'.vtx (n, false) = m) (hn1 : s'.vtx (n, true) = s.vtx (e, true)) :
    ∀ i ∈ s'.sid.live, ∃ j ∈ s.sid.live, ∀ u, 0 ≤ u → u ≤ 1 → ∃ u', 0 ≤ u' ∧ u' ≤ 1 ∧ segPt s' i u = segPt s j u' := by
  intro i hi
  by_cases hin : i = n
  · subst hin
    refine ⟨e, he, fun u u0 u1 => ?_⟩
    have h1 := mul_nonneg u0 (sub_nonneg.2 t1.le)
    have h2 := mul_nonneg (sub_nonneg.2 u1) (sub_nonneg.2 t1.le)
    refine ⟨t + u * (1 - t), by linarith, by linarith, ?_⟩
    have := Verif.Decomp.between_part (s.xy (s.vtx (e, false))) (s.xy (s.vtx (e, true))) t 1 u
    rw [Verif.Decomp.between_one] at this
    unfold segPt
    rw [hn0, hn1, hxm, hx _ (hL.vlive (e, true) he)]
    exact this
  have hi' := ((hs i).1 hi).resolve_left hin
  by_cases hie : i = e
  · subst hie
    refine ⟨i, he, fun u u0 u1 => ?_⟩
    have h1 := mul_nonneg u0 t0.le
    have h2 := mul_le_mul u1 t1.le t0.le zero_le_one
    refine ⟨0 + u * (t - 0), by linarith, by linarith, ?_⟩
    have := Verif.Decomp.between_part (s.xy (s.vtx (i, false))) (s.xy (s.vtx (i, true))) 0 t u
    rw [Verif.Decomp.between_zero] at this
    unfold segPt
    rw [he0, he1, hxm, hx _ (hL.vlive (i, false) he)]
    exact this
  · refine ⟨i, hi', fun u u0 u1 => ⟨u, u0, u1, ?_⟩⟩
    rw [Verif.Decomp.segPt_congr (ho i hi' hie) (fun v => hx _ (hL.vlive (i, v) hi'))]

/-- State of the loop over the candidates: `f0` is the state before the loop, `done` the candidates before. -/
structure Loop (c : Cfg K) (r : Range K) (f0 : Fr K) (a b : Id) (done todo : List Id) (l : List (Div K)) (f : Fr K) : Prop where
  good : Good c r f
  tol : f.tol = f0.tol
  pts : ∀ i ∈ f0.dec.pid.live, i ∈ f.dec.pid.live ∧ f.dec.xy i = f0.dec.xy i
  segs : ∀ e ∈ f0.dec.sid.live, e ∈ f.dec.sid.live
  todo : ∀ e ∈ todo, e ∈ f0.dec.sid.live ∧ f.dec.vec e = f0.dec.vec e ∧ ∀ v, f.dec.vtx (e, v) = f0.dec.vtx (e, v)
  uncut : ∀ e ∈ f0.dec.sid.live, (∀ t, ¬ Crosses c f0 a b e t) → ∀ v, f.dec.vtx (e, v) = f0.dec.vtx (e, v)
  items : ∀ d ∈ l, ∃ e ∈ done, ∃ t, Crosses c f0 a b e t ∧ d.t = t.2 ∧ f.dec.xy d.mid = lineAt f0 a b t.2 ∧
    d.mid ∉ f0.dec.pid.live ∧ d.mid ∈ f.dec.pid.live ∧ d.old = e
  cut : ∀ e ∈ done, ∀ t, Crosses c f0 a b e t → (∃ d ∈ l, d.t = t.2) ∧ Divided f0 f a b e t
  keys : l.Pairwise fun x y => x.t ≠ y.t ∧ x.mid ≠ y.mid
  news : ∀ i ∈ f.dec.pid.live, i ∈ f0.dec.pid.live ∨ ∃ d ∈ l, d.mid = i
  parts : ∀ e ∈ f.dec.sid.live, ∃ e' ∈ f0.dec.sid.live, ∀ u, 0 ≤ u → u ≤ 1 → ∃ u', 0 ≤ u' ∧ u' ≤ 1 ∧
    segPt f.dec e u = segPt f0.dec e' u'
  plan : Verif.Decomp.Planar f0.dec → Verif.Decomp.Planar f.dec

theorem segIsecs_loop {c : Cfg K} {r : Range K} (hm : 0 < r.m) (heps : 0 ≤ c.eps) {f0 : Fr K} (hG0 : Good c r f0) {a b : Id}
    (ha : a ∈ f0.dec.pid.live) (hb : b ∈ f0.dec.pid.live) (hc : Clear c f0 a b) : ∀ {todo done : List Id} {l l' : List (Div K)}
    {f f' : Fr K}, (done ++ todo).Nodup → Loop c r f0 a b done todo l f → segIsecs c a b todo l f = .ok (l', f') →
      Loop c r f0 a b (done ++ todo) [] l' f'
  | [], done, l, l', f, f', _, hL, h => by
    cases h
    rw [List.append_nil]
    exact hL
  | e :: es, done, l, l', f, f', hnd, hL, h => by
    rw [segIsecs] at h
    simp only [bindOk, key_ok] at h
    obtain ⟨_, he, h⟩ := h
    obtain ⟨he0, hvec, hvtx⟩ := hL.todo e (by simp)
    have hI0 := hG0.reach.reach.inv
    have hsame : ∀ t, intersection c.eps (f.dec.xy (f.dec.vtx (e, false))) (f.dec.vec e) (f.dec.xy a) (f.dec.xy b) = some t ↔
        Crosses c f0 a b e t := by
      intro t
      unfold Crosses
      rw [hvec, hvtx false, (hL.pts a ha).2, (hL.pts b hb).2, (hL.pts _ (hI0.links.vlive (e, false) he0)).2]
      simp [he0]
    have hnd' : (done ++ [e] ++ es).Nodup := by simpa using hnd
    have heq : done ++ e :: es = done ++ [e] ++ es := by simp
    have hes : e ∉ es := by
      have := (List.nodup_append.1 hnd).2.1
      exact (List.nodup_cons.1 this).1
    have hed : e ∉ done := by
      intro hh
      have := (List.nodup_append.1 hnd).2.2 e hh e (by simp)
      exact this rfl
    cases hi : intersection c.eps (f.dec.xy (f.dec.vtx (e, false))) (f.dec.vec e) (f.dec.xy a) (f.dec.xy b) with
    | none =>
      rw [hi] at h
      have hno : ∀ t, ¬ Crosses c f0 a b e t := fun t ht => by
        rw [(hsame t).2 ht] at hi
        cases hi
      rw [heq]
      refine segIsecs_loop hm heps hG0 ha hb hc hnd' ?_ h
      refine ⟨hL.good, hL.tol, hL.pts, hL.segs, fun e' he' => hL.todo e' (by simp [he']), hL.uncut, ?_, ?_, hL.keys, hL.news, hL.parts, hL.plan⟩
      · intro d hd
        obtain ⟨e', he', hrest⟩ := hL.items d hd
        exact ⟨e', by simp [he'], hrest⟩
      · intro e' he' t ht
        rcases List.mem_append.1 he' with he' | he'
        · exact hL.cut e' he' t ht
        · rw [List.mem_singleton] at he'
          subst he'
          exact absurd ht (hno t)
    | some t =>
      rw [hi] at h
      simp only [bindOk] at h
      obtain ⟨⟨m, f1⟩, hp, h⟩ := h
      have hcr : Crosses c f0 a b e t := (hsame t).1 hi
      obtain ⟨n0, n1⟩ := hc.inner hG0 hm heps hcr
      have t0 : 0 < t.1 := lt_of_le_of_lt heps (crosses_iff.1 hcr).2.2.2.1.1
      have t1 : t.1 < 1 := by have := (crosses_iff.1 hcr).2.2.2.1.2; linarith
      obtain ⟨g1, g2, g3, g4, g5, g6, g7, g8, g9, g10, g11, g12, g13⟩ := pointOnSegment_split hm hL.good he hp
        (by rw [hvec, hL.tol]; exact n0) (by rw [hvec, hL.tol]; exact n1)
      have hpos : at_ f e t.1 = lineAt f0 a b t.2 := by
        rw [← (crosses_iff.1 hcr).2.2.1]
        unfold at_
        rw [hvec, hvtx false, (hL.pts _ (hI0.links.vlive (e, false) he0)).2]
      have hfresh : ∀ x ∈ l, x.t ≠ t.2 ∧ x.mid ≠ m.1 := by
        intro x hx
        obtain ⟨e', he', t', hcr', hxt, _, _, hxl, _⟩ := hL.items x hx
        refine ⟨fun hh => ?_, ne_of_mem_of_not_mem hxl g3⟩
        have hee : e ≠ e' := fun h => hed (h ▸ he')
        have htwo := hc.two e e' t t' hcr hcr' hee
        obtain ⟨po, so, hM⟩ := hG0.mirror
        have ht : 0 < f0.tol := lt_of_lt_of_le hm hM.tol.1
        rw [← hxt, hh] at htwo
        have : dist2 (lineAt f0 a b t.2) (lineAt f0 a b t.2) = 0 := by simp [dist2]
        rw [this] at htwo
        exact absurd htwo (not_le.2 (mul_pos ht ht))
      rw [setDiv_mem (fun x hx => (hfresh x hx).1)] at h
      rw [heq]
      refine segIsecs_loop hm heps hG0 ha hb hc hnd' ?_ h
      have hlive0 : ∀ i ∈ f0.dec.pid.live, i ∈ f1.dec.pid.live ∧ f1.dec.xy i = f0.dec.xy i := fun i hi =>
        ⟨(g5 i).2 (Or.inr (hL.pts i hi).1), (g6 i (hL.pts i hi).1).trans (hL.pts i hi).2⟩
      refine ⟨g1, g2.trans hL.tol, hlive0, fun e' he' => (g8 e').2 (Or.inr (hL.segs e' he')), ?_, ?_, ?_, ?_, ?_, ?_, ?_, ?_⟩
      · intro e' he'
        obtain ⟨k1, k2, k3⟩ := hL.todo e' (by simp [he'])
        have hne : e' ≠ e := ne_of_mem_of_not_mem he' hes
        obtain ⟨k4, k5⟩ := g9 e' (hL.segs e' k1) hne
        exact ⟨k1, k4.trans k2, fun v => (k5 v).trans (k3 v)⟩
      · intro e' he' hno v
        have hne : e' ≠ e := fun hh => hno t (hh ▸ hcr)
        exact ((g9 e' (hL.segs e' he') hne).2 v).trans (hL.uncut e' he' hno v)
      · intro d hd
        rcases List.mem_append.1 hd with hd | hd
        · obtain ⟨e', he', t', k1, k2, k3, k4, k5, k6⟩ := hL.items d hd
          exact ⟨e', by simp [he'], t', k1, k2, (g6 _ k5).trans k3, k4, (g5 _).2 (Or.inr k5), k6⟩
        · rw [List.mem_singleton] at hd
          subst hd
          exact ⟨e, by simp, t, hcr, rfl, g7.trans hpos, fun hh => g3 (hL.pts _ hh).1, (g5 _).2 (Or.inl rfl), rfl⟩
      · intro e' he' t' ht'
        rcases List.mem_append.1 he' with he' | he'
        · obtain ⟨⟨d, hd, hdt⟩, p, n, k1, k2, k3, k4, k5, k6, k7, k8, k9⟩ := hL.cut e' he' t' ht'
          have hne : e' ≠ e := ne_of_mem_of_not_mem he' hed
          have hne2 : n ≠ e := fun hh => k2 (hh ▸ he0)
          obtain ⟨_, q1⟩ := g9 e' (hL.segs e' ht'.1) hne
          obtain ⟨_, q2⟩ := g9 n k4 hne2
          exact ⟨⟨d, by simp [hd], hdt⟩, p, n, k1, k2, (g5 _).2 (Or.inr k3), (g8 _).2 (Or.inr k4), (g6 _ k3).trans k5,
            (q1 false).trans k6, (q1 true).trans k7, (q2 false).trans k8, (q2 true).trans k9⟩
        · rw [List.mem_singleton] at he'
          subst he'
          have htt : t' = t := by
            have := (hsame t').2 ht'
            rw [hi] at this
            exact (Option.some.inj this).symm
          subst htt
          refine ⟨⟨_, by simp; right; rfl, rfl⟩, m.1, m.2, fun hh => g3 (hL.pts _ hh).1, fun hh => g4 (hL.segs _ hh),
            (g5 _).2 (Or.inl rfl), (g8 _).2 (Or.inl rfl), g7.trans hpos, g10.trans (hvtx false), g11, g12, g13.trans (hvtx true)⟩
      · rw [List.pairwise_append]
        refine ⟨hL.keys, by simp, fun x hx y hy => ?_⟩
        rw [List.mem_singleton] at hy
        subst hy
        exact hfresh x hx
      · intro i hi
        rcases (g5 i).1 hi with rfl | hi
        · exact Or.inr ⟨_, List.mem_append_right _ (List.mem_singleton.2 rfl), rfl⟩
        · rcases hL.news i hi with h | ⟨d, hd, rfl⟩
          · exact Or.inl h
          · exact Or.inr ⟨d, by simp [hd], rfl⟩
      · intro i hi
        obtain ⟨j, hj, hpart⟩ := split_parts (s := f.dec) hL.good.reach.reach.inv.links he t0 t1 g6 (g7.trans (at_seg hL.good he t.1)) g8
          (fun i hi hie => (g9 i hi hie).2) g10 g11 g12 g13 i hi
        obtain ⟨j0, hj0, hpart0⟩ := hL.parts j hj
        refine ⟨j0, hj0, fun u u0 u1 => ?_⟩
        obtain ⟨u', v0, v1, hu⟩ := hpart u u0 u1
        obtain ⟨u'', w0, w1, hu'⟩ := hpart0 u' v0 v1
        exact ⟨u'', w0, w1, hu.trans hu'⟩
      · intro h0
        exact (hL.plan h0).split hL.good.reach.reach.inv.links he t0 t1 g4 g5 g6 (g7.trans (at_seg hL.good he t.1)) g8
          (fun i hi hie => (g9 i hi hie).2) g10 g11 g12 g13

/-! ### The whole line -/

/-- The candidates of the table of segments: live ids, among them all segments that cross. -/
theorem line_candidates {c : Cfg K} {r : Range K} (hr : r.Ok) (heps : 0 ≤ c.eps) {f : Fr K} (hG : Good c r f) {a b : Id}
    (ha : a ∈ f.dec.pid.live) (hb : b ∈ f.dec.pid.live) {x : Box K} (hx : boxOf f [f.dec.xy a, f.dec.xy b] = .ok x) :
    (f.sl.intersect x).Nodup ∧ (∀ e ∈ f.sl.intersect x, e ∈ f.dec.sid.live) ∧
      ∀ e t, Crosses c f a b e t → e ∈ f.sl.intersect x := by
  obtain ⟨po, so, hM⟩ := hG.mirror
  have ht : 0 < f.tol := lt_of_lt_of_le hr.m hM.tol.1
  have hV := Verif.Decomp.vectors_exact_partial hG.reach
  obtain ⟨s1, s2, s3, s4⟩ := hr.sum (hM.pin a ha) (hM.tol.1.trans hM.tol.2)
  obtain ⟨k1, k2, k3⟩ := boxOf_two hx ht (hM.pin a ha) (hM.pin b hb)
  have hval : ∀ {m : K} {b : Box K} {p : K × K}, 0 < m → Inside m b p → b.Valid := by
    intro m b p hm ⟨h1, h2, h3, h4⟩
    exact ⟨by linarith, by linarith⟩
  have hhas : ∀ {m : K} {b : Box K} {p : K × K}, 0 < m → Inside m b p → b.Has (toPt p) := by
    intro m b p hm ⟨h1, h2, h3, h4⟩
    exact ⟨by dsimp only [toPt]; linarith, by dsimp only [toPt]; linarith, by dsimp only [toPt]; linarith,
      by dsimp only [toPt]; linarith⟩
  obtain ⟨hs, hmem⟩ := Verif.Aabb.intersect_exact r.inf r.rt2 128 (by norm_num) so x (hval ht k1)
    (by have := k3.2.2.2.2.2.1; linarith [hM.tol.2]) (fun i b hb => hval hr.m ((hM.sbox i b hb).1 false))
  rw [hM.sl]
  refine ⟨hs.imp fun h => Nat.ne_of_lt h, fun e he => ?_, fun e t hc => ?_⟩
  · obtain ⟨b, hb, _⟩ := (hmem e).1 he
    exact (hM.sdom e).1 (by rw [hb]; simp)
  · obtain ⟨he, _, hat, ⟨w1, w2⟩, w3, w4⟩ := crosses_iff.1 hc
    obtain ⟨be, hbe⟩ := Option.ne_none_iff_exists'.1 ((hM.sdom e).2 he)
    refine (hmem e).2 ⟨be, hbe, toPt (at_ f e t.1), ?_, ?_⟩
    · have hi := ((hM.sbox e be hbe).1 false).segment ((hM.sbox e be hbe).1 true) (t := t.1) (by linarith) (by linarith)
      unfold at_
      rw [hV e he]
      exact hhas hr.m hi
    · rw [hat]
      exact hhas ht (k1.segment k2 (t := t.2) (by linarith) (by linarith))

theorem snapTo_some {f : Fr K} {a b p : Id} : ∀ {l : List Id}, snapTo f a b l = .ok (some p) →
    p ∈ l ∧ ∃ t, 0 ≤ t ∧ t ≤ 1 ∧ dist2 (f.dec.xy p) (lineAt f a b t) < f.tol * f.tol
  | [], h => by simp [snapTo] at h
  | q :: l, h => by
    rw [snapTo] at h
    simp only [bindOk, liftD_ok] at h
    obtain ⟨t, ht, h⟩ := h
    obtain ⟨h0, h1, _⟩ := Verif.Plane.project_nearest ht
    split at h
    · next hn =>
      cases h
      exact ⟨by simp, t, h0, h1, hn.2⟩
    · obtain ⟨k1, k2⟩ := snapTo_some h
      exact ⟨by simp [k1], k2⟩

theorem candidatePts_mem {c : Cfg K} (hord : ∀ l p, p ∈ c.order l → p ∈ l) {om : List Id} {f : Fr K} {es cs : List Id}
    (h : candidatePts c om f es = .ok cs) {p : Id} (hp : p ∈ cs) : p ∉ om ∧ ∃ e ∈ f.dec.sid.live, ∃ v, f.dec.vtx (e, v) = p := by
  unfold candidatePts at h
  simp only [bindOk] at h
  obtain ⟨l, hl, h⟩ := h
  cases h
  have := hord _ _ hp
  rw [List.mem_filter, List.mem_dedup, List.mem_flatten] at this
  obtain ⟨⟨ys, hys, hpy⟩, hom⟩ := this
  obtain ⟨e, _, hy⟩ := (mapM_mem hl).2 ys hys
  simp only [bindOk, key_ok] at hy
  obtain ⟨_, he, hy⟩ := hy
  cases hy
  refine ⟨of_decide_eq_true hom, e, he, ?_⟩
  simp only [List.mem_cons, List.not_mem_nil, or_false] at hpy
  rcases hpy with h | h
  · exact ⟨false, h.symm⟩
  · exact ⟨true, h.symm⟩

theorem apart_of {f : Fr K} : ∀ {ps : List Id} {a : Id}, (∀ p ∈ ps, a ≠ p ∧ ¬ normLt (dist2 (f.dec.xy a) (f.dec.xy p)) f.tol) →
    ps.Pairwise (fun p q => p ≠ q ∧ ¬ normLt (dist2 (f.dec.xy p) (f.dec.xy q)) f.tol) → Apart f a ps
  | [], _, _, _ => trivial
  | p :: ps, a, h1, h2 => by
    obtain ⟨h3, h4⟩ := List.pairwise_cons.1 h2
    obtain ⟨h5, h6⟩ := h1 p (by simp)
    exact ⟨h5, h6, apart_of h3 h4⟩

/-- The loop over the candidates of the line. -/
theorem lineIsecs_loop {c : Cfg K} {r : Range K} (hr : r.Ok) (heps : 0 ≤ c.eps) {f : Fr K} (hG : Good c r f) {a b : Id}
    (ha : a ∈ f.dec.pid.live) (hb : b ∈ f.dec.pid.live) (hc : Clear c f a b) {ds : List (Div K)} {f1 : Fr K}
    (hl : lineIsecs c a b f = .ok (ds, f1)) :
    ∃ done, Loop c r f a b done [] ds f1 ∧ ∀ e t, Crosses c f a b e t → e ∈ done := by
  unfold lineIsecs at hl
  simp only [bindOk] at hl
  obtain ⟨x, hx, hl⟩ := hl
  obtain ⟨c1, c2, c3⟩ := line_candidates (c := c) hr heps hG ha hb hx
  have hL0 : Loop c r f a b [] (f.sl.intersect x) [] f :=
    ⟨hG, rfl, fun i hi => ⟨hi, rfl⟩, fun e he => he, fun e he => ⟨c2 e he, rfl, fun v => rfl⟩, fun e he _ v => rfl,
      by simp, by simp, List.Pairwise.nil, fun i hi => Or.inl hi,
      fun e he => ⟨e, he, fun u u0 u1 => ⟨u, u0, u1, rfl⟩⟩, id⟩
  have hL := segIsecs_loop hr.m heps hG ha hb hc (by simpa using c1) hL0 hl
  rw [List.nil_append] at hL
  exact ⟨_, hL, c3⟩

/-- The division in the order of parameters. -/
theorem loop_sorted {c : Cfg K} {r : Range K} {f f1 : Fr K} {a b : Id} (ha : a ∈ f.dec.pid.live) (hb : b ∈ f.dec.pid.live)
    (hab : a ≠ b) (hc : Clear c f a b) {done : List Id} {ds : List (Div K)} (hL : Loop c r f a b done [] ds f1) :
    (ds.insertionSort fun x y => x.t ≤ y.t).Pairwise (fun x y => x.t ≤ y.t) ∧ (ds.insertionSort fun x y => x.t ≤ y.t).Perm ds ∧
    (ds.insertionSort fun x y => x.t ≤ y.t).Pairwise (fun x y => x.t ≠ y.t ∧ x.mid ≠ y.mid) ∧
    (∀ d ∈ ds.insertionSort (fun x y => x.t ≤ y.t), ∃ e, ∃ t, Crosses c f a b e t ∧ d.t = t.2 ∧
      f1.dec.xy d.mid = lineAt f a b t.2 ∧ d.mid ∉ f.dec.pid.live ∧ d.mid ∈ f1.dec.pid.live) ∧
    Apart f1 a ((ds.insertionSort fun x y => x.t ≤ y.t).map Div.mid) ∧
    ((ds.insertionSort fun x y => x.t ≤ y.t).map Div.mid ++ [b]).getLast? ≠
      (a :: (ds.insertionSort fun x y => x.t ≤ y.t).map Div.mid).getLast? := by
  have hsort := List.pairwise_insertionSort (fun x y : Div K => x.t ≤ y.t) ds
  have hperm := List.perm_insertionSort (fun x y : Div K => x.t ≤ y.t) ds
  have hkeys := (hperm.pairwise_iff (R := fun x y : Div K => x.t ≠ y.t ∧ x.mid ≠ y.mid)
    (fun h => ⟨h.1.symm, h.2.symm⟩)).2 hL.keys
  have hitems : ∀ d ∈ ds.insertionSort (fun x y => x.t ≤ y.t), ∃ e, ∃ t, Crosses c f a b e t ∧ d.t = t.2 ∧
      f1.dec.xy d.mid = lineAt f a b t.2 ∧ d.mid ∉ f.dec.pid.live ∧ d.mid ∈ f1.dec.pid.live := by
    intro d hd
    obtain ⟨e, _, t, g1, g2, g3, g4, g5, _⟩ := hL.items d (hperm.subset hd)
    exact ⟨e, t, g1, g2, g3, g4, g5⟩
  generalize ds.insertionSort (fun x y : Div K => x.t ≤ y.t) = sd at hsort hperm hkeys hitems ⊢
  have hxa : f1.dec.xy a = f.dec.xy a := (hL.pts a ha).2
  have hap : Apart f1 a (sd.map Div.mid) := by
    refine apart_of ?_ ?_
    · intro p hp
      obtain ⟨d, hd, rfl⟩ := List.mem_map.1 hp
      obtain ⟨e, t, g1, g2, g3, g4, g5⟩ := hitems d hd
      refine ⟨fun hh => g4 (hh ▸ ha), fun hn => ?_⟩
      have := hc.start e t g1
      rw [← g3, ← hxa, ← hL.tol] at this
      exact absurd hn.2 (not_lt.2 this)
    · rw [List.pairwise_map]
      refine List.Pairwise.imp_of_mem ?_ hkeys
      intro d d' hd hd' hne
      obtain ⟨e, t, g1, g2, g3, g4, g5⟩ := hitems d hd
      obtain ⟨e', t', k1, k2, k3, k4, k5⟩ := hitems d' hd'
      refine ⟨hne.2, fun hn => ?_⟩
      have hee : e ≠ e' := by
        intro hh
        subst hh
        have := g1.2.symm.trans k1.2
        rw [Option.some.injEq] at this
        exact hne.1 (by rw [g2, k2, this])
      have := hc.two e e' t t' g1 k1 hee
      rw [← g3, ← k3, ← hL.tol] at this
      exact absurd hn.2 (not_lt.2 this)
  have hlast : (sd.map Div.mid ++ [b]).getLast? ≠ (a :: sd.map Div.mid).getLast? := by
    rw [List.getLast?_append, List.getLast?_singleton]
    intro hh
    have hmem := List.mem_of_getLast? (by rw [← hh]; rfl : (a :: sd.map Div.mid).getLast? = some b)
    rcases List.mem_cons.1 hmem with h | h
    · exact hab h.symm
    · obtain ⟨d, hd, hdb⟩ := List.mem_map.1 h
      obtain ⟨_, _, _, _, _, g4, _⟩ := hitems d hd
      exact g4 (hdb ▸ hb)
  exact ⟨hsort, hperm, hkeys, hitems, hap, hlast⟩

/-- **C119.** A line from `a` to `b` whose neighbourhood is clear is divided exactly in its crossings: the returned segments join
`a`, the crossings in their order, and `b`; every segment that crosses it is divided in the crossing, and every other one keeps
its ends. -/
theorem line_divided {c : Cfg K} {r : Range K} {f : Fr K} (hR : Run c r f) (heps : 0 ≤ c.eps)
    (hord : ∀ l p, p ∈ c.order l → p ∈ l) {a b : Id} (ha : a ∈ f.dec.pid.live) (hb : b ∈ f.dec.pid.live) (hab : a ≠ b)
    (hc : Clear c f a b) {n : Nat} {l : List Id} {f' : Fr K} (h : addLinePts c n a b [a, b] f = .ok (l, f')) :
    (∃ (ps : List Id) (ts : List K), Joined f'.dec a (ps ++ [b]) l ∧ ts.Pairwise (· < ·) ∧
      ps.map f'.dec.xy = ts.map (lineAt f a b) ∧ (∀ t, t ∈ ts ↔ ∃ e u, Crosses c f a b e (u, t)) ∧
      ∀ p ∈ ps, p ∉ f.dec.pid.live) ∧
    (∀ e t, Crosses c f a b e t → Divided f f' a b e t) ∧
    (∀ e ∈ f.dec.sid.live, e ∈ f'.dec.sid.live ∧ ((∀ t, ¬ Crosses c f a b e t) → ∀ v, f'.dec.vtx (e, v) = f.dec.vtx (e, v))) ∧
    ∀ p ∈ f.dec.pid.live, p ∈ f'.dec.pid.live ∧ f'.dec.xy p = f.dec.xy p := by
  have hG := hR.good
  have hm := hR.ok.m
  obtain ⟨po, so, hM⟩ := hG.mirror
  have htol : 0 < f.tol := lt_of_lt_of_le hm hM.tol.1
  cases n with
  | zero => cases h
  | succ n =>
    rw [addLinePts, if_neg hab] at h
    simp only [bindOk] at h
    obtain ⟨x, hx, cs, hcs, s, hs, h⟩ := h
    cases s with
    | some p =>
      exfalso
      obtain ⟨hp, t, h0, h1, hn⟩ := snapTo_some hs
      obtain ⟨hom, e, he, v, hv⟩ := candidatePts_mem hord hcs hp
      simp only [List.mem_cons, List.not_mem_nil, or_false, not_or] at hom
      have := hc.ends e he v (by rw [hv]; exact hom.1) (by rw [hv]; exact hom.2) t h0 h1
      rw [hv] at this
      exact absurd hn (not_lt.2 this)
    | none =>
      simp only [bindOk] at h
      obtain ⟨⟨ds, f1⟩, hl, h⟩ := h
      obtain ⟨done, hL, c3⟩ := lineIsecs_loop hR.ok heps hG ha hb hc hl
      unfold lineSegs at h
      obtain ⟨hsort, hperm, hkeys, hitems, hap, hlast⟩ := loop_sorted ha hb hab hc hL
      generalize ds.insertionSort (fun x y : Div K => x.t ≤ y.t) = sd at h hsort hperm hkeys hitems hap hlast
      obtain ⟨j1, j2, j3, j4⟩ := newSegs_joins hm hL.good h hap hlast
      refine ⟨⟨sd.map Div.mid, sd.map Div.t, j1, ?_, ?_, ?_, ?_⟩, ?_, ?_, ?_⟩
      · rw [List.pairwise_map]
        refine (hsort.and hkeys).imp ?_
        intro d d' hh
        exact lt_of_le_of_ne hh.1 hh.2.1
      · rw [List.map_map, List.map_map]
        refine List.map_congr_left fun d hd => ?_
        obtain ⟨e, t, g1, g2, g3, _⟩ := hitems d hd
        simp only [Function.comp]
        rw [j2, g3, g2]
      · intro t
        rw [List.mem_map]
        constructor
        · rintro ⟨d, hd, rfl⟩
          obtain ⟨e, t, g1, g2, _⟩ := hitems d hd
          refine ⟨e, t.1, ?_⟩
          rw [g2]
          exact g1
        · rintro ⟨e, u, hcr⟩
          obtain ⟨⟨d, hd, hdt⟩, _⟩ := hL.cut e (c3 e _ hcr) _ hcr
          exact ⟨d, hperm.symm.subset hd, hdt⟩
      · intro p hp
        obtain ⟨d, hd, rfl⟩ := List.mem_map.1 hp
        obtain ⟨_, _, _, _, _, g4, _⟩ := hitems d hd
        exact g4
      · intro e t hcr
        obtain ⟨_, p, q, k1, k2, k3, k4, k5, k6, k7, k8, k9⟩ := hL.cut e (c3 e _ hcr) _ hcr
        have he1 := hL.segs e hcr.1
        exact ⟨p, q, k1, k2, by rw [j3]; exact k3, (j4 q k4).1, by rw [j2]; exact k5, ((j4 e he1).2 _).trans k6,
          ((j4 e he1).2 _).trans k7, ((j4 q k4).2 _).trans k8, ((j4 q k4).2 _).trans k9⟩
      · intro e he
        have he1 := hL.segs e he
        exact ⟨(j4 e he1).1, fun hno v => ((j4 e he1).2 v).trans (hL.uncut e he hno v)⟩
      · intro p hp
        rw [j2, j3]
        exact hL.pts p hp

/-- **C122.** `merge_points` keeps the point with the smaller id and removes the other one, or returns the second point and
changes nothing. -/
theorem merge_keeps_lower {c : Cfg K} {r : Range K} {f f' : Fr K} (hR : Run c r f) {a b p : Id}
    (h : mergePoints c a b f = .ok (p, f')) :
    (p = b ∧ f' = f) ∨ (p = min a b ∧ max a b ∉ f'.dec.pid.live) := by
  unfold mergePoints at h
  simp only [bindOk] at h
  obtain ⟨can, _, h⟩ := h
  split at h
  · simp only [bindOk] at h
    obtain ⟨d, _, isB, _, h⟩ := h
    split at h
    · cases h; exact Or.inl ⟨rfl, rfl⟩
    · simp only [bindOk] at h
      obtain ⟨l, _, f1, h1, f2, h2, h⟩ := h
      cases h
      have hI := (prims_good hR.ok.m (mergeSegs_prims h1) hR.good).reach.reach.inv
      simp only [rmPt, bindOk, liftD_ok, liftB_ok, key_ok] at h2
      obtain ⟨_, _, pl, _, s, hs, h2⟩ := h2
      cases h2
      unfold Verif.Decomp.removeFreePoint at hs
      simp only [Verif.Decomp.bind_ok, Verif.Decomp.check_ok, Verif.Decomp.need_ok, Except.ok.injEq,
        Verif.Decomp.removeSet_ok] at hs
      obtain ⟨_, _, q, _, _, _, l, _, m, hm, rfl⟩ := hs
      obtain ⟨_, _, _, k⟩ := Verif.Decomp.Ids.remove_ok hI.pids hm
      refine Or.inr ⟨?_, ?_⟩
      · split
        · next hh => rw [min_eq_right hh.le]
        · next hh => rw [min_eq_left (not_lt.1 hh)]
      · intro hh
        have := ((k _).1 hh).1
        split at this
        · next hh => exact this (max_eq_left hh.le)
        · next hh => exact this (max_eq_right (not_lt.1 hh))
  · cases h; exact Or.inl ⟨rfl, rfl⟩

end Verif.Front
