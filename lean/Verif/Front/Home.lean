import Verif.Front.Plan
import Verif.Plane.Nearest
import Verif.Plane.HolePlaced

/-! The frontend finds the polygon of a new point, and its calls keep the polygons right. -/

namespace Verif.Front
open Verif.Decomp (St Id HE Geom segPt between Planar Tiled Exact Nearest ArgOk)
open Verif.Plane (parametric projectPoint intersection dist2)

variable {K : Type} [Field K] [LinearOrder K] [IsStrictOrderedRing K]

omit [IsStrictOrderedRing K] in
theorem noneContains_eq (s : St K) (x : K × K) : ∀ l, noneContains s x l = Verif.Decomp.outsideAll s x l
  | [] => rfl
  | w :: l => by
    rw [noneContains, Verif.Decomp.outsideAll]
    congr 1
    funext b
    rw [noneContains_eq s x l]

omit [IsStrictOrderedRing K] in
/-- Both models of `Polygon.contains_point` are the same. -/
theorem polyContains_eq (s : St K) (q : Id) (x : K × K) : polyContains s q x = Verif.Decomp.polyContains s q x := by
  rw [polyContains, Verif.Decomp.polyContains]
  congr 1
  funext b
  rw [noneContains_eq]

/-! ### The polygon beside the nearest segment -/

theorem dist2_zero {x y : K × K} (h : dist2 x y = 0) : x = y := by
  simp only [dist2] at h
  have e1 := mul_self_nonneg (x.1 - y.1)
  have e2 := mul_self_nonneg (x.2 - y.2)
  exact Prod.ext (sub_eq_zero.1 (mul_self_eq_zero.1 (by linarith))) (sub_eq_zero.1 (mul_self_eq_zero.1 (by linarith)))

/-- A point whose foot is inside of a segment is not on its line, unless it is on the segment. -/
theorem foot_side {v o x : K × K} {t : K} (h : projectPoint v o x = .ok t) (h0 : t ≠ 0) (h1 : t ≠ 1)
    (hs : dot (sub x o) (v.2, -v.1) = 0) : x = parametric o v t := by
  unfold projectPoint at h
  dsimp only at h
  split at h
  · cases h
  next hd =>
  rw [Except.ok.injEq] at h
  have ht : t = ((x.1 - o.1) * v.1 + (x.2 - o.2) * v.2) / (v.1 * v.1 + v.2 * v.2) := by
    rcases le_total (((x.1 - o.1) * v.1 + (x.2 - o.2) * v.2) / (v.1 * v.1 + v.2 * v.2)) 0 with k | k
    · rw [max_eq_right k, min_eq_left zero_le_one] at h
      exact absurd h.symm h0
    · rw [max_eq_left k] at h
      rcases le_total (((x.1 - o.1) * v.1 + (x.2 - o.2) * v.2) / (v.1 * v.1 + v.2 * v.2)) 1 with k' | k'
      · rw [min_eq_left k'] at h
        exact h.symm
      · rw [min_eq_right k'] at h
        exact absurd h.symm h1
  rw [eq_div_iff hd] at ht
  simp only [dot, sub] at hs
  refine Prod.ext ?_ ?_
  · simp only [parametric]
    refine mul_left_cancel₀ hd ?_
    linear_combination v.2 * hs - v.1 * ht
  · simp only [parametric]
    refine mul_left_cancel₀ hd ?_
    linear_combination -v.1 * hs - v.2 * ht

/-- The polygon beside the nearest segment is found, and it contains the point. -/
theorem polygonBy_home {c : Cfg K} (hg : ArgOk c.geo) {r : Range K} {f : Fr K} (hG : Good c r f) (hT : Tiled c.geo f.dec) {x : K × K} {e : Id} {t : K}
    (he : e ∈ f.dec.sid.live) (t0 : 0 ≤ t) (t1 : t ≤ 1)
    (hp : projectPoint (f.dec.vec e) (f.dec.xy (f.dec.vtx (e, false))) x = .ok t)
    (hmin : ∀ e' ∈ f.dec.sid.live, ∀ u, 0 ≤ u → u ≤ 1 → dist2 x (at_ f e t) ≤ dist2 x (at_ f e' u))
    (hfar : 2 * (c.geo.tiny * c.geo.tiny) < dist2 x (at_ f e t)) :
    ∃ q ∈ f.dec.qid.live, polygonBy c f x e t = .ok q ∧ Exact f.dec x q := by
  have hD := hT.drawn
  have hL := hD.links
  have hpos : 0 < dist2 x (at_ f e t) := lt_of_le_of_lt (by nlinarith [mul_self_nonneg c.geo.tiny]) hfar
  have hat : ∀ u, at_ f e u = segPt f.dec e u := at_seg hG he
  have hN : Nearest f.dec x (segPt f.dec e t) := by
    intro e' he' u u0 u1
    rw [← hat, ← at_seg hG he']
    exact hmin e' he' u u0 u1
  rw [hat] at hpos hfar
  have hV := Verif.Decomp.vectors_exact_partial hG.reach e he
  by_cases ht : t = 0 ∨ t = 1
  · -- the nearest point is an end
    have hend : segPt f.dec e t = f.dec.xy (f.dec.vtx (e, if t = 0 then false else true)) := by
      rcases ht with rfl | rfl
      · simp [segPt, Verif.Decomp.between_zero]
      · simp [segPt, Verif.Decomp.between_one]
    generalize hvx : f.dec.vtx (e, if t = 0 then false else true) = p at hend
    have hpl : p ∈ f.dec.pid.live := by rw [← hvx]; exact hL.vlive _ he
    have hps : f.dec.pseg p ≠ none := by
      intro hh
      exact hL.no_seg hpl (by simp) hh (e, if t = 0 then false else true) he hvx
    rw [hend] at hN hpos hfar
    have htiny : c.geo.tiny < |(sub x (f.dec.xy p)).1| ∨ c.geo.tiny < |(sub x (f.dec.xy p)).2| := by
      by_contra hh
      rw [not_or, not_lt, not_lt] at hh
      have k1 : (sub x (f.dec.xy p)).1 * (sub x (f.dec.xy p)).1 ≤ c.geo.tiny * c.geo.tiny := by
        rw [← abs_mul_abs_self]
        exact mul_self_le_mul_self (abs_nonneg _) hh.1
      have k2 : (sub x (f.dec.xy p)).2 * (sub x (f.dec.xy p)).2 ≤ c.geo.tiny * c.geo.tiny := by
        rw [← abs_mul_abs_self]
        exact mul_self_le_mul_self (abs_nonneg _) hh.2
      have k3 : dist2 x (f.dec.xy p) = (sub x (f.dec.xy p)).1 * (sub x (f.dec.xy p)).1 + (sub x (f.dec.xy p)).2 * (sub x (f.dec.xy p)).2 := by
        simp only [dist2, sub]
      rw [k3] at hfar
      linarith
    obtain ⟨o, ho, hnone⟩ := Verif.Decomp.insertVector_total hg.toAngleOk hG.reach.reach hpl htiny
    cases o with
    | none => exact absurd (hnone.1 rfl) hps
    | some i =>
      have hC : Verif.Decomp.Corner f.dec p i := by
        rcases Verif.Decomp.insertVector_sound hL hpl ho with ⟨_, h⟩ | ⟨j, h1, h2⟩
        · cases h
        · obtain rfl := Option.some.inj h1
          exact h2.1
      obtain ⟨w, q, hw, _, _, hq, hql⟩ := hD.nested.side hC.live
      have hw' : i.2.2 = some w := hC.wir.trans hw
      refine ⟨q, hql, ?_, Verif.Decomp.nearest_corner hg hD hT.good hpl hN hpos ho hw' hq⟩
      unfold polygonBy
      dsimp only
      rw [if_pos ht, hvx, ho]
      simp only [liftD, need, bind, Except.bind, hw', Verif.Decomp.need, hq]
  · -- the nearest point is inside
    rw [not_or] at ht
    have t0' : 0 < t := lt_of_le_of_ne t0 (Ne.symm ht.1)
    have t1' : t < 1 := lt_of_le_of_ne t1 ht.2
    have hn : dot (sub x (f.dec.xy (f.dec.vtx (e, false)))) ((f.dec.vec e).2, -(f.dec.vec e).1) ≠ 0 := by
      intro hh
      have := foot_side hp ht.1 ht.2 hh
      have hx : x = segPt f.dec e t := by rw [← hat]; exact this
      rw [← hx] at hpos
      have : dist2 x x = 0 := by simp [dist2]
      linarith
    set n := dot (sub x (f.dec.xy (f.dec.vtx (e, false)))) ((f.dec.vec e).2, -(f.dec.vec e).1) with hnn
    have hside : 0 < Verif.Plane.side (Verif.Decomp.org f.dec (e, if 0 < n then false else true))
        (Verif.Decomp.dst f.dec (e, if 0 < n then false else true)) x := by
      have hnv : n = - Verif.Plane.side (f.dec.xy (f.dec.vtx (e, false))) (f.dec.xy (f.dec.vtx (e, true))) x := by
        rw [hnn, hV]
        simp only [dot, sub, Verif.Plane.side]
        ring
      split
      · next k =>
        have : Verif.Plane.side (Verif.Decomp.org f.dec (e, false)) (Verif.Decomp.dst f.dec (e, false)) x = n := by
          rw [hnv]
          simp only [Verif.Decomp.org, Verif.Decomp.dst, Verif.Decomp.flip, Verif.Plane.side, Bool.not_false]
          ring
        rw [this]
        exact k
      · next k =>
        have : Verif.Plane.side (Verif.Decomp.org f.dec (e, true)) (Verif.Decomp.dst f.dec (e, true)) x = -n := by
          rw [hnv]
          simp only [Verif.Decomp.org, Verif.Decomp.dst, Verif.Decomp.flip, Verif.Plane.side, Bool.not_true]
          ring
        rw [this]
        have := lt_of_le_of_ne (not_lt.1 k) hn
        linarith
    have hS := Verif.Decomp.nearest_sees (d := (e, if 0 < n then false else true)) hL hD.planar he t0' t1' hN hside
    obtain ⟨w, q, hw, _, _, hq, hql⟩ := hD.nested.side hS.live
    refine ⟨q, hql, ?_, hT.good w _ x q hS hw hq⟩
    unfold polygonBy
    dsimp only
    rw [if_neg (by rw [not_or]; exact ht), ← hnn, check, if_pos hn]
    simp only [liftD, bind, Except.bind, Verif.Decomp.polyAt, hw, Verif.Decomp.need, hq]

/-- The list of near segments is found if there are segments. -/
theorem closeSegments_total {c : Cfg K} {r : Range K} (hr : r.Ok) {f : Fr K} (hG : Good c r f) {x : K × K} (hx : Bounded r.C x)
    (hlong : ∀ e ∈ f.dec.sid.live, f.dec.vec e ≠ (0, 0)) (hne : f.dec.sid.live ≠ []) : ∃ l, closeSegments f x = .ok l := by
  obtain ⟨po, so, hM⟩ := hG.mirror
  obtain ⟨s1, _, _, _⟩ := hr.sum hx (hM.tol.1.trans hM.tol.2)
  obtain ⟨e0, he0⟩ := List.exists_mem_of_ne_nil _ hne
  obtain ⟨b0, hb0⟩ := Option.ne_none_iff_exists'.1 ((hM.sdom e0).2 he0)
  obtain ⟨cs, hcs, hlive⟩ := Verif.Aabb.closest_only_stored_partial r.inf r.rt2 (r.C + r.T) 128 (by norm_num) hr.one.le hr.far
    so (fun i b hb => (hM.sbox i b hb).2) (toPt x) (hx.toPt s1) e0 b0 hb0
  have hmap : ∀ l : List Id, (∀ e ∈ l, e ∈ f.dec.sid.live) → ∃ l', l.mapM (segDist f x) = .ok l' := by
    intro l
    induction l with
    | nil => exact fun _ => ⟨[], rfl⟩
    | cons e l ih =>
      intro hl
      obtain ⟨l', hl'⟩ := ih fun e' h' => hl e' (by simp [h'])
      have he := hl e (by simp)
      obtain ⟨y, hy⟩ : ∃ y, segDist f x e = .ok y := by
        unfold segDist
        rw [key, if_pos he]
        have hv : (f.dec.vec e).1 * (f.dec.vec e).1 + (f.dec.vec e).2 * (f.dec.vec e).2 ≠ 0 := by
          intro hh
          have e1 := mul_self_nonneg (f.dec.vec e).1
          have e2 := mul_self_nonneg (f.dec.vec e).2
          exact hlong e he (Prod.ext (mul_self_eq_zero.1 (by linarith)) (mul_self_eq_zero.1 (by linarith)))
        simp only [projectPoint, if_neg hv]
        exact ⟨_, rfl⟩
      rw [List.mapM_cons, hy]
      simp only [bind, Except.bind, hl']
      exact ⟨_, rfl⟩
  obtain ⟨l, hl⟩ := hmap cs fun e he => (hM.sdom e).1 (hlive e he)
  unfold closeSegments
  rw [hM.sl, hcs]
  simp only [liftB, bind, Except.bind, hl]
  exact ⟨_, rfl⟩

/-- `_snap_point` raises nothing if at most one segment is nearer than the tolerance. -/
theorem snapPoint_total {c : Cfg K} (hg : ArgOk c.geo) {r : Range K} (hr : r.Ok) (htiny : 2 * (c.geo.tiny * c.geo.tiny) < r.m * r.m)
    {f : Fr K} (hG : Good c r f) (hT : Tiled c.geo f.dec) {x : K × K} (hx : Bounded r.C x) (hp : f.dec.pid.live ≠ [])
    (hs : f.dec.sid.live ≠ [])
    (h1 : ∀ e ∈ f.dec.sid.live, ∀ e' ∈ f.dec.sid.live, ∀ u u', 0 ≤ u → u ≤ 1 → 0 ≤ u' → u' ≤ 1 →
      Near f x (at_ f e u) → Near f x (at_ f e' u') → e = e') : ∃ s, snapPoint c x f = .ok s := by
  obtain ⟨po, so, hM⟩ := hG.mirror
  have ht : 0 < f.tol := lt_of_lt_of_le hr.m hM.tol.1
  obtain ⟨cs, hcs, hlive, _⟩ := points_candidates hr hG hx hp
  obtain ⟨o, ho⟩ := firstNear_total (f := f) (x := x) hlive
  unfold snapPoint
  rw [hcs]
  simp only [liftB, bind, Except.bind, ho]
  cases o with
  | some p => exact ⟨_, rfl⟩
  | none =>
    have hlong : ∀ e ∈ f.dec.sid.live, f.dec.vec e ≠ (0, 0) := by
      intro e he hh
      rw [Verif.Decomp.vectors_exact_partial hG.reach e he] at hh
      exact hT.drawn.fan.long e he hh
    obtain ⟨l, hl⟩ := closeSegments_total hr hG hx hlong hs
    obtain ⟨hmem, hnd, hfirst⟩ := closeSegments_spec hr hG hx hl
    obtain ⟨y, l', rfl, _, hmin⟩ := hfirst hs
    simp only [hl]
    obtain ⟨d, e, t⟩ := y
    obtain ⟨he, t0, t1, hd, hproj⟩ := hmem (d, e, t) (by simp)
    dsimp only at he t0 t1 hd hproj hmin ⊢
    by_cases hn : normLt d f.tol
    · rw [if_pos hn]
      have hne : Near f x (at_ f e t) := by unfold Near; rw [← hd]; exact hn.2
      cases hf : l'.filter (fun r => normLt r.1 f.tol) with
      | nil => exact ⟨_, rfl⟩
      | cons z zs =>
        exfalso
        have hz : z ∈ l'.filter (fun r => normLt r.1 f.tol) := by rw [hf]; simp
        rw [List.mem_filter] at hz
        obtain ⟨z1, z2, z3, z4, _⟩ := hmem z (by simp [hz.1])
        have hnz : Near f x (at_ f z.2.1 z.2.2) := by
          unfold Near
          rw [← z4]
          exact (of_decide_eq_true hz.2).2
        have := h1 e he z.2.1 z1 t z.2.2 t0 t1 z2 z3 hne hnz
        rw [List.map_cons, List.nodup_cons] at hnd
        exact hnd.1 (List.mem_map.2 ⟨z, hz.1, this.symm⟩)
    · rw [if_neg hn]
      have hfar : f.tol * f.tol ≤ dist2 x (at_ f e t) := by
        rw [← hd]
        by_contra hh
        exact hn ⟨ht, not_le.1 hh⟩
      have hmm : r.m * r.m ≤ f.tol * f.tol := mul_self_le_mul_self hr.m.le hM.tol.1
      obtain ⟨q, hq, h2, h3⟩ := polygonBy_home hg hG hT he t0 t1 hproj (by rw [← hd]; exact hmin)
        (lt_of_lt_of_le htiny (hmm.trans hfar))
      rw [h2]
      simp only [polyContains_eq, Verif.Decomp.polyContains_exact hT.drawn.nested hq h3 hq, liftD]
      exact ⟨_, rfl⟩

/-! ### Calls keep the polygons right -/

/-- The middle of a segment is not so near to another segment as the points that `Wire.contains_wire` tests are to it
(polygon.py:208-214): the distance is more than `eps` times the length of the segment. -/
def Wide (c : Cfg K) (s : St K) : Prop := ∀ e ∈ s.sid.live, ∀ e' ∈ s.sid.live, e' ≠ e → ∀ u, 0 ≤ u → u ≤ 1 →
  c.geo.eps * c.geo.eps * dist2 (s.xy (s.vtx (e, false))) (s.xy (s.vtx (e, true))) < dist2 (segPt s e (1 / 2)) (segPt s e' u)

/-- A drawing with fewer segments. -/
structure Part (s s' : St K) : Prop where
  xy : s'.xy = s.xy
  pid : s'.pid = s.pid
  segs : ∀ e ∈ s.sid.live, e ∈ s'.sid.live ∧ ∀ v, s'.vtx (e, v) = s.vtx (e, v)

omit [IsStrictOrderedRing K] in
theorem Part.segPt {s s' : St K} (h : Part s s') {e : Id} (he : e ∈ s.sid.live) (u : K) : segPt s' e u = segPt s e u := by
  unfold Verif.Decomp.segPt
  rw [h.xy, (h.segs e he).2 false, (h.segs e he).2 true]

omit [IsStrictOrderedRing K] in
theorem Part.planar {s s' : St K} (h : Part s s') (hP : Planar s') : Planar s := by
  constructor
  · intro p hp q hq hh
    exact hP.pts p (by rw [h.pid]; exact hp) q (by rw [h.pid]; exact hq) (by rw [h.xy]; exact hh)
  · intro p hp e he u u0 u1 hh
    obtain ⟨v, hv⟩ := hP.on p (by rw [h.pid]; exact hp) e (h.segs e he).1 u u0 u1 (by rw [h.xy, h.segPt he]; exact hh)
    exact ⟨v, ((h.segs e he).2 v).symm.trans hv⟩
  · intro e he e' he' hne u u' u0 u1 u0' u1' hh
    obtain ⟨v, v', k1, k2⟩ := hP.meet e (h.segs e he).1 e' (h.segs e' he').1 hne u u' u0 u1 u0' u1'
      (by rw [h.segPt he, h.segPt he']; exact hh)
    rw [(h.segs e he).2, h.xy, h.segPt he] at k2
    rw [(h.segs e he).2, (h.segs e' he').2] at k1
    exact ⟨v, v', k1, k2⟩

omit [IsStrictOrderedRing K] in
theorem Part.wide {c : Cfg K} {s s' : St K} (h : Part s s') (hF : Wide c s') : Wide c s := by
  intro e he e' he' hne u u0 u1
  have := hF e (h.segs e he).1 e' (h.segs e' he').1 hne u u0 u1
  rw [h.segPt he, h.segPt he', (h.segs e he).2, (h.segs e he).2, h.xy] at this
  exact this

theorem Wide.near {c : Cfg K} {s : St K} (h : Wide c s) (heps : 0 < c.geo.eps) (hW : Verif.Decomp.Wires s)
    (hL : Verif.Decomp.Links s ∅ ∅) (hP : Planar s)
    (hV : ∀ e ∈ s.sid.live, s.vec e = ((s.xy (s.vtx (e, true))).1 - (s.xy (s.vtx (e, false))).1,
      (s.xy (s.vtx (e, true))).2 - (s.xy (s.vtx (e, false))).2)) : Verif.Decomp.Near c.geo s := by
  intro w hw hz d hd
  obtain ⟨d', h1, he, _⟩ := hW.seg w hw hz
  rw [hd] at h1
  cases h1
  obtain ⟨e, v⟩ := d
  dsimp only at he
  have hne := hP.ends_ne hL he
  have hpos : 0 < dist2 (s.xy (s.vtx (e, false))) (s.xy (s.vtx (e, true))) := by
    rcases (dist2_nonneg (s.xy (s.vtx (e, false))) (s.xy (s.vtx (e, true)))).eq_or_lt with k | k
    · exact absurd (dist2_zero k.symm) hne
    · exact k
  have hmid : Verif.Decomp.onDart s (e, v) (1 / 2) = segPt s e (1 / 2) := by
    cases v <;> simp only [Verif.Decomp.onDart, Verif.Decomp.org, Verif.Decomp.dst, Verif.Decomp.flip, Bool.not_true, Bool.not_false,
      parametric, Verif.Plane.dir, segPt, between, Prod.mk.injEq] <;> constructor <;> ring
  have hside : Verif.Plane.side (Verif.Decomp.org s (e, v)) (Verif.Decomp.dst s (e, v)) (Verif.Decomp.sidePoint c.geo s (e, v)) =
      c.geo.eps * dist2 (s.xy (s.vtx (e, false))) (s.xy (s.vtx (e, true))) := by
    cases v <;> simp only [Verif.Decomp.org, Verif.Decomp.dst, Verif.Decomp.flip, Bool.not_true, Bool.not_false, Verif.Plane.side,
      Verif.Decomp.sidePoint, hV e he, dist2, if_true, Bool.false_eq_true, if_false] <;> ring
  have hlen : dist2 (segPt s e (1 / 2)) (Verif.Decomp.sidePoint c.geo s (e, v)) =
      c.geo.eps * c.geo.eps * dist2 (s.xy (s.vtx (e, false))) (s.xy (s.vtx (e, true))) := by
    cases v <;> simp only [Verif.Decomp.sidePoint, hV e he, dist2, segPt, between, if_true, Bool.false_eq_true, if_false] <;> ring
  refine ⟨he, by rw [hside]; exact mul_pos heps hpos, 1 / 2, by norm_num, by norm_num, fun e' he' hne' => ?_⟩
  rw [hmid]
  rintro z ⟨u, u0, u1, hu⟩ ⟨t, t0, t1, ht⟩
  have h2 := h e he e' he' hne' u u0 u1
  rw [← hlen] at h2
  have hz : segPt s e' u = z := hu.symm
  rw [hz, ht] at h2
  have h3 : ∀ p q : K × K, dist2 p (parametric p (Verif.Plane.dir p q) t) = t * t * dist2 p q := by
    intro p q
    simp only [dist2, parametric, Verif.Plane.dir]
    ring
  have h4 : ∀ p q : K × K, between p q t = parametric p (Verif.Plane.dir p q) t := fun p q => rfl
  first | rw [h3] at h2 | (rw [h4, h3] at h2)
  have h5 := dist2_nonneg (segPt s e (1 / 2)) (Verif.Decomp.sidePoint c.geo s (e, v))
  have h6 : t * t ≤ 1 := by nlinarith
  nlinarith

/-- Two points that are joined in a planar drawing could be joined. -/
theorem Part.freeLine {s s' : St K} (h : Part s s') (hP : Planar s') (hL : Verif.Decomp.Links s' ∅ ∅) {e a b : Id} (he : e ∈ s'.sid.live) {v : Bool}
    (ha : s'.vtx (e, v) = a) (hb : s'.vtx (e, !v) = b) : Verif.Decomp.FreeLine s a b := by
  have hseg : ∀ u, between (s.xy a) (s.xy b) u = Verif.Decomp.segPt s' e (if v then 1 - u else u) := by
    intro u
    rw [← h.xy, ← ha, ← hb]
    cases v
    · rfl
    · exact Verif.Decomp.between_rev _ _ _
  have hin : ∀ u : K, 0 ≤ u → u ≤ 1 → 0 ≤ (if v then 1 - u else u) ∧ (if v then 1 - u else u) ≤ 1 := by
    intro u u0 u1
    cases v
    · exact ⟨u0, u1⟩
    · simp only [if_true]
      exact ⟨by linarith, by linarith⟩
  constructor
  · intro p hp u u0 u1 hh
    rw [hseg, ← h.xy] at hh
    obtain ⟨w, hw⟩ := hP.on p (by rw [h.pid]; exact hp) e he _ (hin u u0 u1).1 (hin u u0 u1).2 hh
    rw [← hw, ← ha, ← hb]
    cases v <;> cases w <;> simp
  · intro i hi hn u u' u0 u1 u0' u1' hh
    rw [hseg, ← h.segPt hi] at hh
    have hie : i ≠ e := by
      rintro rfl
      exact hn v ⟨((h.segs i hi).2 v).symm.trans ha, ((h.segs i hi).2 (!v)).symm.trans hb⟩
    obtain ⟨w, w', _, hx⟩ := hP.meet i (h.segs i hi).1 e he hie u _ u0 u1 (hin u' u0' u1').1 (hin u' u0' u1').2 hh
    refine ⟨s'.vtx (i, w), ?_, ?_⟩
    · rw [← h.pid]
      exact hL.vlive (i, w) (h.segs i hi).1
    · rw [← h.xy, hx, h.segPt hi]

/-! #### Points -/

theorem pointOnSegment_tiled {c : Cfg K} (hg : ArgOk c.geo) {r : Range K} (hm : 0 < r.m) {f f' : Fr K} (hG : Good c r f) {e : Id}
    (he : e ∈ f.dec.sid.live) {t : K} {m : Id × Id} (h : pointOnSegment e t f = .ok (m, f')) (hT : Tiled c.geo f.dec) :
    Tiled c.geo f'.dec := by
  obtain ⟨po, so, hM⟩ := hG.mirror
  have ht : 0 < f.tol := lt_of_lt_of_le hm hM.tol.1
  unfold pointOnSegment at h
  dsimp only at h
  split at h
  · cases h
    exact hT
  next h0 =>
  split at h
  · cases h
    exact hT
  next h1 =>
  simp only [bindOk] at h
  obtain ⟨⟨mid, f1⟩, ha, ⟨n, f2⟩, hs, h⟩ := h
  cases h
  simp only [addPt, bindOk, key_ok] at ha
  obtain ⟨_, hq, b, _, ha⟩ := ha
  cases ha
  simp only [splitSegment, bindOk, liftD_ok, key_ok] at hs
  obtain ⟨_, _, _, _, ⟨n', s'⟩, hs, _, _, hs'⟩ := hs
  cases hs'
  have h1' := (not_scaledLt ht h1).1
  have hat := at_seg hG he t
  unfold at_ at hat
  rw [hat] at hs
  exact Verif.Decomp.pointOn_tiled hg hT he hq (not_scaledLt ht h0).1 (by linarith) hs

/-- `add_point` keeps the polygons right, whatever point is added. -/
theorem addPoint_tiled {c : Cfg K} (hg : ArgOk c.geo) {r : Range K} (hr : r.Ok) {f f' : Fr K} (hG : Good c r f) {x : K × K} (hx : Bounded r.C x)
    {p : Id} (h : addPoint c x f = .ok (p, f')) (hT : Tiled c.geo f.dec) : Tiled c.geo f'.dec := by
  obtain ⟨po, so, hM⟩ := hG.mirror
  have ht : 0 < f.tol := lt_of_lt_of_le hr.m hM.tol.1
  have hzero : ∀ y : K × K, Near f y y := fun y => by
    unfold Near
    have : dist2 y y = 0 := by simp [dist2]
    rw [this]
    exact mul_pos ht ht
  unfold addPoint at h
  simp only [bindOk] at h
  obtain ⟨s, hs, h⟩ := h
  have hso := snapPoint_spec hr hG hx hs
  cases s with
  | point q => cases h; exact hT
  | segment e t =>
    obtain ⟨_, he, _⟩ := hso
    simp only [bindOk] at h
    obtain ⟨⟨m, f2⟩, h, h'⟩ := h
    cases h'
    exact pointOnSegment_tiled hg hr.m hG he h hT
  | polygon q =>
    obtain ⟨hfar, hno, hin⟩ := hso
    simp only [addPt, bindOk, key_ok] at h
    obtain ⟨_, hq, b, _, h⟩ := h
    cases h
    have hoff : Verif.Decomp.Off f.dec x := by
      rintro e he ⟨u, u0, u1, hu⟩
      refine hno e he u u0 u1 ?_
      rw [at_seg hG he]
      change x = segPt f.dec e u at hu
      rw [← hu]
      exact hzero x
    refine Verif.Decomp.addPoint_tiled hg hT hq (fun i hi hh => hfar i hi (hh ▸ hzero x)) hoff ?_
    rcases hin with ⟨hnil, rfl⟩ | hin
    · obtain ⟨q0, h0, hpart⟩ := Verif.Decomp.polygons_partition hT.drawn hT.good hoff
      have h1 := hT.drawn.nested.nest.outs q0 h0
      have h2 : f.dec.outer q0 = 0 := by
        by_contra hne
        obtain ⟨d, _, hd, _⟩ := hT.drawn.nested.wires.seg _ h1.1 hne
        rw [hnil] at hd
        cases hd
      have h3 := (hT.drawn.nested.nest.outs 0 hq).2
      rw [hT.drawn.nested.nest.o0, ← h2, h1.2, Option.some.injEq] at h3
      rw [hpart 0 hq, h3, h2]
      simp
    · rw [← polyContains_eq]
      exact hin

/-! #### Deletions -/

/-- Not a segment with the same wire on its sides and other segments at both ends, or one inside a polygon of a wide drawing: its wire
is not the outer wire of a polygon. -/
def NoBridge (c : Cfg K) (s : St K) (e : Id) : Prop := s.wire (e, true) = s.wire (e, false) → (∃ v, s.next (e, v) = some (e, !v)) ∨
  Wide c s ∧ ∀ q ∈ s.qid.live, s.wire (e, true) ≠ some (s.outer q)

theorem rmSegment_tiled {c : Cfg K} (hg : ArgOk c.geo) (heps : 0 < c.geo.eps) {r : Range K} (hm : 0 < r.m) {f f' : Fr K} (hG : Good c r f)
    {e : Id} (h : rmSegment c e f = .ok f') (hb : NoBridge c f.dec e) (hT : Tiled c.geo f.dec) : Tiled c.geo f'.dec := by
  have hG' := prims_good hm (.single (.rmSegment h)) hG
  simp only [rmSegment, bindOk, liftD_ok, liftB_ok, key_ok] at h
  obtain ⟨_, he, sl, _, s, hs, h⟩ := h
  cases h
  refine Verif.Decomp.deleteSegment_tiled hg hs hT he fun h1 h2 => ?_
  obtain ⟨hF, ho⟩ := (hb h1).resolve_left fun ⟨v, hv⟩ => h2 v hv
  have hN := hT.drawn.nested
  have hD := (Verif.Decomp.deleteSegment_next hs hN.inv he).1
  have hA : Part s f.dec := ⟨hD.xy.symm, hD.pid.symm, fun i hi => ⟨((hD.live i).1 hi).2, fun v => by rw [hD.vtx]⟩⟩
  exact Verif.Decomp.deleteSegment_placed hg hs hT he h1 h2 ho ((hA.wide hF).near heps
    (Verif.Decomp.deleteSegment_wires hs hN.inv hN.wires he (hN.delOk he)) hG'.reach.reach.inv.links (hA.planar hT.drawn.planar)
    (Verif.Decomp.vectors_exact_partial hG'.reach))

theorem rmPt_tiled {c : Cfg K} (hg : ArgOk c.geo) {f f' : Fr K} {p : Id} (h : rmPt p f = .ok f') (hT : Tiled c.geo f.dec) :
    Tiled c.geo f'.dec := by
  simp only [rmPt, bindOk, liftD_ok, liftB_ok, key_ok] at h
  obtain ⟨_, _, pl, _, s, hs, h⟩ := h
  cases h
  exact Verif.Decomp.removePoint_tiled hg hs hT

/-- No segment of the list is a bridge when it is removed. -/
def NoBridges (c : Cfg K) : List HE → Fr K → Prop
  | [], _ => True
  | d :: l, f => NoBridge c f.dec d.1 ∧ ∀ f', rmSegment c d.1 f = .ok f' → NoBridges c l f'

theorem rmSegments_tiled {c : Cfg K} (hg : ArgOk c.geo) (heps : 0 < c.geo.eps) {r : Range K} (hm : 0 < r.m) :
    ∀ {l : List HE} {f f' : Fr K}, Good c r f → rmSegments c l f = .ok f' → NoBridges c l f → Tiled c.geo f.dec → Tiled c.geo f'.dec
  | [], f, f', _, h, _, hT => by cases h; exact hT
  | d :: l, f, f', hG, h, hb, hT => by
    simp only [rmSegments, bindOk] at h
    obtain ⟨f1, h1, h⟩ := h
    exact rmSegments_tiled hg heps hm (prims_good hm (.single (.rmSegment h1)) hG) h (hb.2 f1 h1) (rmSegment_tiled hg heps hm hG h1 hb.1 hT)

theorem deletePoint_tiled {c : Cfg K} (hg : ArgOk c.geo) (heps : 0 < c.geo.eps) {r : Range K} (hm : 0 < r.m) {f f' : Fr K} (hG : Good c r f) {p : Id} (h : deletePoint c p f = .ok f')
    (hb : ∀ d l, f.dec.pseg p = some d → Verif.Decomp.around f.dec d = .ok l → NoBridges c l f) (hT : Tiled c.geo f.dec) :
    Tiled c.geo f'.dec := by
  simp only [deletePoint, bindOk] at h
  obtain ⟨l, hl, f1, h1, h⟩ := h
  refine rmPt_tiled hg h ?_
  cases hp : f.dec.pseg p with
  | none =>
    rw [hp] at hl
    cases hl
    cases h1
    exact hT
  | some d =>
    rw [hp] at hl
    exact rmSegments_tiled hg heps hm hG h1 (hb d l hp (liftD_ok.1 hl)) hT

/-! #### Lines -/

theorem addSegment_part {c : Cfg K} {r : Range K} {f f' : Fr K} (hG : Good c r f) {a b e : Id}
    (h : addSegment c a b f = .ok (e, f')) : Part f.dec f'.dec := by
  obtain ⟨h1, h2, h3, _⟩ := addSegment_joins hG h
  exact ⟨h2, h3, h1⟩

/-- A segment that is in a planar and wide drawing later keeps the polygons right. -/
theorem addSegment_tiled {c : Cfg K} (hg : ArgOk c.geo) (heps : 0 < c.geo.eps) {r : Range K} (hm : 0 < r.m) {f f' : Fr K} (hG : Good c r f) {a b e : Id}
    (h : addSegment c a b f = .ok (e, f')) (hP : Planar f'.dec) (hF : Wide c f'.dec) (hT : Tiled c.geo f.dec) : Tiled c.geo f'.dec := by
  have hG' := prims_good hm (.single (.addSegment h)) hG
  have hA := addSegment_part hG h
  obtain ⟨_, _, _, _, he, v, va, vb⟩ := addSegment_joins hG h
  have hfl := hA.freeLine hP hG'.reach.reach.inv.links he va vb
  simp only [Front.addSegment, bindOk, liftD_ok, key_ok] at h
  obtain ⟨_, ha, _, hb, ⟨e, s'⟩, h1, x, hx, h⟩ := h
  cases h
  exact Verif.Decomp.newLine_tiled hg h1 hT ha hb hfl (hF.near heps
    (Verif.Decomp.newSegment_wires h1 hT.drawn.nested.inv hT.drawn.nested.wires ha hb) hG'.reach.reach.inv.links hP
    (Verif.Decomp.vectors_exact_partial hG'.reach))

theorem newSegs_tiled {c : Cfg K} (hg : ArgOk c.geo) (heps : 0 < c.geo.eps) {r : Range K} (hm : 0 < r.m) {b : Id} :
    ∀ {ds : List (Div K)} {a : Id} {f f' : Fr K} {l : List Id}, Good c r f → newSegs c b a ds f = .ok (l, f') →
    Apart f a (ds.map Div.mid) → (ds.map Div.mid ++ [b]).getLast? ≠ (a :: ds.map Div.mid).getLast? → Planar f'.dec → Wide c f'.dec →
    Tiled c.geo f.dec → Tiled c.geo f'.dec
  | [], a, f, f', l, hG, h, _, hlast, hP, hF, hT => by
    simp only [List.map_nil, List.nil_append, List.getLast?_singleton, ne_eq, Option.some.injEq] at hlast
    rw [newSegs, if_pos (fun hh => hlast hh.symm)] at h
    simp only [bindOk] at h
    obtain ⟨⟨e, f1⟩, h1, h⟩ := h
    cases h
    exact addSegment_tiled hg heps hm hG h1 hP hF hT
  | d :: ds, a, f, f', l, hG, h, hap, hlast, hP, hF, hT => by
    obtain ⟨h1, h2, h3⟩ := hap
    rw [newSegs, if_neg h1, if_neg h2] at h
    simp only [bindOk] at h
    obtain ⟨⟨e, f1⟩, hadd, ⟨l', f2⟩, hn, h⟩ := h
    cases h
    obtain ⟨_, k2, _, k4, _⟩ := addSegment_joins hG hadd
    have hG1 := prims_good hm (.single (.addSegment hadd)) hG
    have hap1 := h3.congr k2 k4
    have hlast1 : (ds.map Div.mid ++ [b]).getLast? ≠ (d.mid :: ds.map Div.mid).getLast? := by
      simpa [List.getLast?_append, List.getLast?_cons] using hlast
    obtain ⟨_, j1, j2, j3⟩ := newSegs_joins hm hG1 hn hap1 hlast1
    have hA : Part f1.dec f2.dec := ⟨j1, j2, j3⟩
    exact newSegs_tiled hg heps hm hG1 hn hap1 hlast1 hP hF (addSegment_tiled hg heps hm hG hadd (hA.planar hP) (hA.wide hF) hT)

theorem segIsecs_tiled {c : Cfg K} (hg : ArgOk c.geo) {r : Range K} (hm : 0 < r.m) {a b : Id} : ∀ {es : List Id} {l l' : List (Div K)}
    {f f' : Fr K}, Good c r f → segIsecs c a b es l f = .ok (l', f') → Tiled c.geo f.dec → Tiled c.geo f'.dec
  | [], l, l', f, f', _, h, hT => by cases h; exact hT
  | e :: es, l, l', f, f', hG, h, hT => by
    rw [segIsecs] at h
    simp only [bindOk, key_ok] at h
    obtain ⟨_, he, h⟩ := h
    split at h
    · exact segIsecs_tiled hg hm hG h hT
    · simp only [bindOk] at h
      obtain ⟨⟨m, f1⟩, h1, h⟩ := h
      exact segIsecs_tiled hg hm (prims_good hm (pointOnSegment_prims (c := c) h1) hG) h (pointOnSegment_tiled hg hm hG he h1 hT)

/-- A line that is not snapped to a point between. -/
theorem leaf_tiled {c : Cfg K} (hg : ArgOk c.geo) (hge : 0 < c.geo.eps) {r : Range K} (hr : r.Ok) (heps : 0 ≤ c.eps)
    (hC : c.eps * c.eps * (8 * (r.C * r.C)) < r.m * r.m) {f : Fr K} (hG : Good c r f) {a b : Id} (ha : a ∈ f.dec.pid.live)
    (hb : b ∈ f.dec.pid.live) (hab : a ≠ b) (hO : Open c f a b) {ds : List (Div K)} {f1 f' : Fr K} {l : List Id}
    (hl : lineIsecs c a b f = .ok (ds, f1)) (h : lineSegs c a b ds f1 = .ok (l, f')) (hF : Wide c f'.dec) (hT : Tiled c.geo f.dec) :
    Tiled c.geo f'.dec := by
  have hP' := (leaf_planar hr heps hC hG ha hb hab hO hT.drawn.planar hl h).1
  obtain ⟨done, hL, _⟩ := lineIsecs_loop hr heps hG ha hb hO.toClear hl
  obtain ⟨_, _, _, _, hap, hlast⟩ := loop_sorted ha hb hab hO.toClear hL
  simp only [lineIsecs, bindOk] at hl
  obtain ⟨x, _, hl⟩ := hl
  exact newSegs_tiled hg hge hr.m hL.good h hap hlast hP' hF (segIsecs_tiled hg hr.m hG hl hT)

/-- The drawing is wide after each of the parts into which `add_line_for_points` divides a line. -/
def Fair (c : Cfg K) : Nat → Id → Id → List Id → Fr K → Prop
  | 0, _, _, _, _ => True
  | n + 1, a, b, om, f => ∀ x cs, boxOf f [f.dec.xy a, f.dec.xy b] = .ok x → candidatePts c om f (f.sl.intersect x) = .ok cs →
      (∀ p, snapTo f a b cs = .ok (some p) → Fair c n a p (p :: om) f ∧
        ∀ l f', addLinePts c n a p (p :: om) f = .ok (l, f') → Fair c n p b (p :: om) f') ∧
      (snapTo f a b cs = .ok none → ∀ l f', addLinePts c (n + 1) a b om f = .ok (l, f') → Wide c f'.dec)

theorem addLinePts_tiled {c : Cfg K} (hg : ArgOk c.geo) (hge : 0 < c.geo.eps) {r : Range K} (hr : r.Ok) (heps : 0 ≤ c.eps)
    (hC : c.eps * c.eps * (8 * (r.C * r.C)) < r.m * r.m) (hord : ∀ l p, p ∈ c.order l → p ∈ l) : ∀ {n : Nat} {f f' : Fr K} {a b : Id}
    {om l : List Id}, Good c r f → a ∈ f.dec.pid.live → b ∈ f.dec.pid.live → Plain c n a b om f → Fair c n a b om f →
    Tiled c.geo f.dec → addLinePts c n a b om f = .ok (l, f') → Tiled c.geo f'.dec
  | 0, f, f', a, b, om, l, _, _, _, _, _, _, h => by cases h
  | n + 1, f, f', a, b, om, l, hG, ha, hb, hpl, hfa, hT, h => by
    have hrun := h
    rw [addLinePts] at h
    split at h
    · cases h
      exact hT
    next hab =>
    simp only [bindOk] at h
    obtain ⟨x, hx, cs, hcs, s, hs, h⟩ := h
    obtain ⟨k1, k2⟩ := hpl x cs hx hcs
    obtain ⟨m1, m2⟩ := hfa x cs hx hcs
    cases s with
    | some p =>
      simp only [bindOk] at h
      obtain ⟨⟨l0, f1⟩, h0, ⟨l1, f2⟩, h1, h⟩ := h
      cases h
      obtain ⟨j1, j2⟩ := k1 p hs
      obtain ⟨n1, n2⟩ := m1 p hs
      have hp : p ∈ f.dec.pid.live := by
        obtain ⟨_, e, he, v, hv⟩ := candidatePts_mem hord hcs (snapTo_some hs).1
        rw [← hv]
        exact hG.reach.reach.inv.links.vlive (e, v) he
      have q2 := (addLinePts_planar hr heps hC hord hG ha hp j1 hT.drawn.planar h0).2
      have q1 := addLinePts_tiled hg hge hr heps hC hord hG ha hp j1 n1 hT h0
      have hG1 := prims_good hr.m (addLinePts_prims h0) hG
      exact addLinePts_tiled hg hge hr heps hC hord hG1 (q2 p hp) (q2 b hb) (j2 l0 f1 h0) (n2 l0 f1 h0) q1 h1
    | none =>
      simp only [bindOk] at h
      obtain ⟨⟨ds, f1⟩, hl, h⟩ := h
      exact leaf_tiled hg hge hr heps hC hG ha hb hab (k2 hs) hl h (m2 hs l f' hrun) hT

/-! #### All calls -/

/-- Calls for which it is known that they keep the polygons right: tidy calls that leave the drawing wide and remove
no bridges of outer wires. -/
def Neat (c : Cfg K) (f : Fr K) : Call K → Prop
  | .addLine x y => ∀ a f1 b f2, addPoint c x f = .ok (a, f1) → addPoint c y f1 = .ok (b, f2) → Fair c c.depth a b [a, b] f2
  | .addLineForPoints a b om => Fair c c.depth a b om f
  | .newSegment a b => ∀ e f', addSegment c a b f = .ok (e, f') → Wide c f'.dec
  | .deleteSegment e => NoBridge c f.dec e
  | .deletePoint p => ∀ d l, f.dec.pseg p = some d → Verif.Decomp.around f.dec d = .ok l → NoBridges c l f
  | _ => True

/-- Each call is such one in the state after the calls before. -/
def AllNeat (c : Cfg K) : List (Call K) → Fr K → Prop
  | [], _ => True
  | o :: os, f => (Tidy c f o ∧ Neat c f o) ∧ ∀ f', call c f o = .ok f' → AllNeat c os f'

theorem AllNeat.tidy {c : Cfg K} : ∀ {os : List (Call K)} {f : Fr K}, AllNeat c os f → AllTidy c os f
  | [], _, _ => trivial
  | _ :: _, _, h => ⟨h.1.1, fun f' hf' => (h.2 f' hf').tidy⟩

theorem call_tiled {c : Cfg K} (hg : ArgOk c.geo) (hge : 0 < c.geo.eps) {r : Range K} (hr : r.Ok) (heps : 0 ≤ c.eps)
    (hC : c.eps * c.eps * (8 * (r.C * r.C)) < r.m * r.m) (hord : ∀ l p, p ∈ c.order l → p ∈ l) {f f' : Fr K} {o : Call K}
    (hG : Good c r f) (hF : Fits r o) (hY : Tidy c f o) (hN : Neat c f o) (hT : Tiled c.geo f.dec) (h : call c f o = .ok f') :
    Tiled c.geo f'.dec := by
  have hP' := call_planar hr heps hC hord hG hF hY hT.drawn.planar h
  cases o with
  | addPoint x =>
    simp only [call, bindOk] at h
    obtain ⟨⟨p, f1⟩, h1, h⟩ := h
    cases h
    exact addPoint_tiled hg hr hG hF h1 hT
  | addLine x y =>
    simp only [call, bindOk] at h
    obtain ⟨⟨p, f1⟩, h1, h⟩ := h
    cases h
    simp only [addLine, bindOk] at h1
    obtain ⟨⟨a, f2⟩, ha, ⟨b, f3⟩, hb, h1⟩ := h1
    have hT2 := addPoint_tiled hg hr hG hF.1 ha hT
    have hG2 := prims_good hr.m (addPoint_prims hF.1 ha) hG
    have hT3 := addPoint_tiled hg hr hG2 hF.2 hb hT2
    have hG3 := prims_good hr.m (addPoint_prims hF.2 hb) hG2
    have hlive : ∀ {g g' : Fr K} {x : K × K} {p : Id}, Good c r g → Bounded r.C x → addPoint c x g = .ok (p, g') →
        p ∈ g'.dec.pid.live ∧ ∀ q ∈ g.dec.pid.live, q ∈ g'.dec.pid.live := by
      intro g g' x p hg hx hp
      rcases addPoint_cases hr hg hx hp with ⟨rfl, hp⟩ | ⟨_, _, _, hl, _⟩
      · exact ⟨hp, fun q hq => hq⟩
      · exact ⟨(hl p).2 (Or.inl rfl), fun q hq => (hl q).2 (Or.inr hq)⟩
    split at h1
    · cases h1
      exact hT3
    · simp only [bindOk] at h1
      obtain ⟨⟨l, f4⟩, h4, h1⟩ := h1
      cases h1
      exact addLinePts_tiled hg hge hr heps hC hord hG3 ((hlive hG2 hF.2 hb).2 a (hlive hG hF.1 ha).1) (hlive hG2 hF.2 hb).1
        (hY a f2 b f3 ha hb) (hN a f2 b f3 ha hb) hT3 h4
  | addLineForPoints a b om =>
    simp only [call, bindOk] at h
    obtain ⟨⟨l, f1⟩, h1, h⟩ := h
    cases h
    exact addLinePts_tiled hg hge hr heps hC hord hG hY.1 hY.2.1 hY.2.2 hN hT h1
  | newSegment a b =>
    simp only [call, bindOk] at h
    obtain ⟨⟨e, f1⟩, h1, h⟩ := h
    cases h
    exact addSegment_tiled hg hge hr.m hG h1 hP' (hN e f1 h1) hT
  | deleteSegment e => exact rmSegment_tiled hg hge hr.m hG h hN hT
  | deletePoint p => exact deletePoint_tiled hg hge hr.m hG h hN hT
  | mergePoints a b => exact hY.elim
  | movePoints ps d => exact hY.elim
  | setTolerance t => cases h; exact hT
  | setAttr e b =>
    simp only [call, setAttr, bindOk, key_ok] at h
    obtain ⟨_, _, h⟩ := h
    cases h
    exact hT

theorem calls_tiled {c : Cfg K} (hg : ArgOk c.geo) (hge : 0 < c.geo.eps) {r : Range K} (hr : r.Ok) (heps : 0 ≤ c.eps)
    (hC : c.eps * c.eps * (8 * (r.C * r.C)) < r.m * r.m) (hord : ∀ l p, p ∈ c.order l → p ∈ l) : ∀ {os : List (Call K)} {f f' : Fr K},
    Good c r f → (∀ o ∈ os, Fits r o) → AllNeat c os f → Tiled c.geo f.dec → calls c os f = .ok f' → Good c r f' ∧ Tiled c.geo f'.dec
  | [], f, f', hG, _, _, hT, h => by cases h; exact ⟨hG, hT⟩
  | o :: os, f, f', hG, hF, hA, hT, h => by
    simp only [calls, bindOk] at h
    obtain ⟨f1, h1, h⟩ := h
    have hG1 : Good c r f1 := calls_good hr.m (os := [o]) hG (fun o' ho' => hF o' (by simp at ho'; simp [ho']))
      (by simp only [calls, bindOk]; exact ⟨f1, h1, rfl⟩)
    exact calls_tiled hg hge hr heps hC hord hG1 (fun o' ho' => hF o' (by simp [ho'])) (hA.2 f1 h1)
      (call_tiled hg hge hr heps hC hord hG (hF o (by simp)) hA.1.1 hA.1.2 hT h1) h

/-- **C163.** After any neat calls of the frontend every point of the plane off the segments is in exactly one polygon, by
`Polygon.contains_point`. -/
theorem calls_partition {c : Cfg K} (hg : ArgOk c.geo) (hge : 0 < c.geo.eps) {r : Range K} (hr : r.Ok) (heps : 0 ≤ c.eps)
    (hC : c.eps * c.eps * (8 * (r.C * r.C)) < r.m * r.m) (hord : ∀ l p, p ∈ c.order l → p ∈ l) {tol : K} (ht : r.m ≤ tol ∧ tol ≤ r.T)
    {os : List (Call K)} (ho : ∀ o ∈ os, Fits r o) (hN : AllNeat c os (init r.inf r.rt2 tol)) {f : Fr K}
    (h : calls c os (init r.inf r.rt2 tol) = .ok f) {x : K × K}
    (hx : ∀ e ∈ f.dec.sid.live, ∀ u, 0 ≤ u → u ≤ 1 → x ≠ parametric (f.dec.xy (f.dec.vtx (e, false))) (f.dec.vec e) u) :
    ∃ q0 ∈ f.dec.qid.live, polyContains f.dec q0 x = .ok true ∧ ∀ q ∈ f.dec.qid.live, q ≠ q0 → polyContains f.dec q x = .ok false := by
  obtain ⟨hG, hT⟩ := calls_tiled hg hge hr heps hC hord (init_good ht) ho hN Verif.Decomp.init_tiled h
  obtain ⟨q0, h0, hq⟩ := Verif.Decomp.polygons_partition hT.drawn hT.good (x := x) (by
    rintro e he ⟨u, u0, u1, hu⟩
    refine hx e he u u0 u1 ?_
    have := at_seg hG he u
    unfold at_ at this
    rw [this]
    exact hu)
  simp only [polyContains_eq]
  exact ⟨q0, h0, by rw [hq q0 h0]; simp, fun q hql hne => by rw [hq q hql]; simp [hne]⟩

/-- **C164.** After any neat calls of the frontend every free point is listed in the polygon that contains it and in no other. -/
theorem calls_free_points {c : Cfg K} (hg : ArgOk c.geo) (hge : 0 < c.geo.eps) {r : Range K} (hr : r.Ok) (heps : 0 ≤ c.eps)
    (hC : c.eps * c.eps * (8 * (r.C * r.C)) < r.m * r.m) (hord : ∀ l p, p ∈ c.order l → p ∈ l) {tol : K} (ht : r.m ≤ tol ∧ tol ≤ r.T)
    {os : List (Call K)} (ho : ∀ o ∈ os, Fits r o) (hN : AllNeat c os (init r.inf r.rt2 tol)) {f : Fr K}
    (h : calls c os (init r.inf r.rt2 tol) = .ok f) {p : Id} (hp : p ∈ f.dec.pid.live) (hf : f.dec.pseg p = none) :
    ∃ q ∈ f.dec.qid.live, f.dec.ppoly p = some q ∧ p ∈ f.dec.fpts q ∧ polyContains f.dec q (f.dec.xy p) = .ok true ∧
      ∀ q' ∈ f.dec.qid.live, q' ≠ q → p ∉ f.dec.fpts q' ∧ polyContains f.dec q' (f.dec.xy p) = .ok false := by
  obtain ⟨hG, hT⟩ := calls_tiled hg hge hr heps hC hord (init_good ht) ho hN Verif.Decomp.init_tiled h
  simp only [polyContains_eq]
  exact hT.home hp hf

end Verif.Front
