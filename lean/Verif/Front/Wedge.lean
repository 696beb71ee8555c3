import Verif.Front.Home

/-! Points that are added where two segments are nearer than the tolerance. -/

namespace Verif.Front
open Verif.Decomp (St Id HE Geom Tiled ArgOk)
open Verif.Plane (parametric projectPoint intersection dist2)

variable {K : Type} [Field K] [LinearOrder K] [IsStrictOrderedRing K]

/-- The norm used in `_snap_point` is positive and, squared, not more than 1/50 below the right one. -/
def NrmOk (c : Cfg K) : Prop :=
  ∀ v : K × K, v ≠ (0, 0) → 0 < c.nrm v ∧ 99 / 100 * (99 / 100) * (v.1 * v.1 + v.2 * v.2) < c.nrm v * c.nrm v

/-- The normal of length one that `_snap_point` takes: that of the segment `e` on the side of `x` (polygons.py:399-402). -/
def unitTo (c : Cfg K) (f : Fr K) (x : K × K) (e : Id) : K × K :=
  let u := f.dec.vec e
  let n := c.nrm (u.2, -u.1)
  let m : K × K := (u.2 / n, -u.1 / n)
  if dot m (sub x (f.dec.xy (f.dec.vtx (e, false)))) < 0 then (-m.1, -m.2) else m

omit [IsStrictOrderedRing K] in
theorem awayFrom_iff {c : Cfg K} {f : Fr K} {x : K × K} {ea eb : Id} {t : K} : awayFrom c f x ea eb = .ok t ↔
    dot (f.dec.vec ea) (unitTo c f x eb) ≠ 0 ∧
    t = (f.tol - dot (sub (f.dec.xy (f.dec.vtx (ea, false))) (f.dec.xy (f.dec.vtx (eb, false)))) (unitTo c f x eb)) /
      dot (f.dec.vec ea) (unitTo c f x eb) ∧
    ∃ tb, projectPoint (f.dec.vec eb) (f.dec.xy (f.dec.vtx (eb, false))) (at_ f ea t) = .ok tb ∧
      f.tol * (99 / 100) * (f.tol * (99 / 100)) < dist2 (at_ f ea t) (at_ f eb tb) := by
  unfold awayFrom
  simp only [bindOk, checkOk, liftD_ok]
  constructor
  · rintro ⟨_, h1, tb, h2, _, h3, h4⟩
    cases h4
    exact ⟨h1, rfl, tb, h2, h3⟩
  · rintro ⟨h1, rfl, tb, h2, h3⟩
    exact ⟨(), h1, tb, h2, (), h3, rfl⟩

theorem unitTo_cases (c : Cfg K) (f : Fr K) (x : K × K) (e : Id) :
    0 ≤ dot (unitTo c f x e) (sub x (f.dec.xy (f.dec.vtx (e, false)))) ∧
    ∃ s : K, s * s = 1 ∧ (unitTo c f x e).1 = s * (f.dec.vec e).2 / c.nrm ((f.dec.vec e).2, -(f.dec.vec e).1) ∧
      (unitTo c f x e).2 = -(s * (f.dec.vec e).1) / c.nrm ((f.dec.vec e).2, -(f.dec.vec e).1) := by
  unfold unitTo
  dsimp only
  split
  · next h =>
    refine ⟨?_, -1, by ring, ?_, ?_⟩
    · unfold dot at h ⊢
      dsimp only at h ⊢
      linarith
    · ring
    · ring
  · next h =>
    refine ⟨not_lt.1 h, 1, by ring, ?_, ?_⟩
    · ring
    · ring

/-- The point has the distance of the tolerance from the line of the other segment, on the side of `x`. -/
theorem awayFrom_side {c : Cfg K} {f : Fr K} {x : K × K} {ea eb : Id} {t : K} (h : awayFrom c f x ea eb = .ok t) :
    dot (sub (at_ f ea t) (f.dec.xy (f.dec.vtx (eb, false)))) (unitTo c f x eb) = f.tol := by
  obtain ⟨h1, h2, _⟩ := awayFrom_iff.1 h
  have h3 := (eq_div_iff h1).1 h2
  unfold at_ parametric
  unfold dot sub at h3 ⊢
  dsimp only at h3 ⊢
  linear_combination h3

/-- The point is far from the other segment. -/
theorem awayFrom_far {c : Cfg K} {f : Fr K} {x : K × K} {ea eb : Id} {t : K} (h : awayFrom c f x ea eb = .ok t) {s : K} (s0 : 0 ≤ s)
    (s1 : s ≤ 1) : f.tol * (99 / 100) * (f.tol * (99 / 100)) < dist2 (at_ f ea t) (at_ f eb s) := by
  obtain ⟨_, _, tb, h3, h4⟩ := awayFrom_iff.1 h
  by_cases hs : s = tb
  · rw [hs]; exact h4
  · exact h4.trans ((Verif.Plane.project_nearest h3).2.2 s s0 s1 hs)

/-- The point exists if the segments are not parallel. -/
theorem awayFrom_total {c : Cfg K} (hn : NrmOk c) {f : Fr K} (ht : 0 < f.tol) (x : K × K) {ea eb : Id}
    (hv : ¬ Verif.Plane.Parallel (f.dec.vec ea) (f.dec.vec eb)) : ∃ t, awayFrom c f x ea eb = .ok t := by
  obtain ⟨_, s, hs, u1, u2⟩ := unitTo_cases c f x eb
  have hb : ((f.dec.vec eb).2, -(f.dec.vec eb).1) ≠ ((0, 0) : K × K) := by
    intro hh
    simp only [Prod.mk.injEq, neg_eq_zero] at hh
    exact hv (by unfold Verif.Plane.Parallel; rw [hh.1, hh.2]; ring)
  obtain ⟨n0, n1⟩ := hn _ hb
  dsimp only at n1
  have hs0 : s ≠ 0 := by rintro rfl; simp at hs
  have hd : dot (f.dec.vec ea) (unitTo c f x eb) ≠ 0 := by
    intro hh
    unfold dot at hh
    rw [u1, u2] at hh
    apply hv
    unfold Verif.Plane.Parallel
    have : s / c.nrm ((f.dec.vec eb).2, -(f.dec.vec eb).1) *
        ((f.dec.vec ea).1 * (f.dec.vec eb).2 - (f.dec.vec ea).2 * (f.dec.vec eb).1) = 0 := by
      rw [← hh]; ring
    rcases mul_eq_zero.1 this with h | h
    · exact absurd h (div_ne_zero hs0 n0.ne')
    · exact sub_eq_zero.1 h
  have hvv : (f.dec.vec eb).1 * (f.dec.vec eb).1 + (f.dec.vec eb).2 * (f.dec.vec eb).2 ≠ 0 := by
    intro hh
    have e1 := mul_self_nonneg (f.dec.vec eb).1
    have e2 := mul_self_nonneg (f.dec.vec eb).2
    have k1 := mul_self_eq_zero.1 (le_antisymm (by linarith) e1)
    have k2 := mul_self_eq_zero.1 (le_antisymm (by linarith) e2)
    exact hb (by rw [k1, k2]; simp)
  generalize ht' : (f.tol - dot (sub (f.dec.xy (f.dec.vtx (ea, false))) (f.dec.xy (f.dec.vtx (eb, false)))) (unitTo c f x eb)) /
      dot (f.dec.vec ea) (unitTo c f x eb) = t
  obtain ⟨tb, htb⟩ : ∃ tb, projectPoint (f.dec.vec eb) (f.dec.xy (f.dec.vtx (eb, false))) (at_ f ea t) = .ok tb := by
    simp only [projectPoint, if_neg hvv]
    exact ⟨_, rfl⟩
  refine ⟨t, awayFrom_iff.2 ⟨hd, ht'.symm, tb, htb, ?_⟩⟩
  have hside : dot (sub (at_ f ea t) (f.dec.xy (f.dec.vtx (eb, false)))) (unitTo c f x eb) = f.tol := by
    have h3 := (div_eq_iff hd).1 ht'
    unfold at_ parametric
    unfold dot sub at h3 ⊢
    dsimp only at h3 ⊢
    linear_combination -h3
  generalize c.nrm ((f.dec.vec eb).2, -(f.dec.vec eb).1) = n at n0 n1 u1 u2
  unfold dot sub at hside
  rw [u1, u2] at hside
  unfold dist2
  have ex : at_ f eb tb = ((f.dec.xy (f.dec.vtx (eb, false))).1 + tb * (f.dec.vec eb).1,
      (f.dec.xy (f.dec.vtx (eb, false))).2 + tb * (f.dec.vec eb).2) := rfl
  rw [ex]
  generalize at_ f ea t = y at hside ⊢
  generalize f.dec.xy (f.dec.vtx (eb, false)) = o at hside ⊢
  generalize f.dec.vec eb = u at hside n1 hvv ⊢
  dsimp only at hside ⊢
  generalize hA : y.1 - (o.1 + tb * u.1) = A
  generalize hB : y.2 - (o.2 + tb * u.2) = B
  have h1 : s * (A * u.2 - B * u.1) = f.tol * n := by
    have : ((y.1 - o.1) * (s * u.2 / n) + (y.2 - o.2) * (-(s * u.1) / n)) * n = f.tol * n := by rw [hside]
    have e : ((y.1 - o.1) * (s * u.2 / n) + (y.2 - o.2) * (-(s * u.1) / n)) * n =
        s * ((y.1 - o.1) * u.2 - (y.2 - o.2) * u.1) := by
      field_simp
      ring
    rw [e] at this
    rw [← this, ← hA, ← hB]
    ring
  have h2 : (A * u.2 - B * u.1) * (A * u.2 - B * u.1) = f.tol * n * (f.tol * n) := by
    rw [← h1]
    linear_combination (-((A * u.2 - B * u.1) * (A * u.2 - B * u.1))) * hs
  have hU : 0 < u.1 * u.1 + u.2 * u.2 :=
    lt_of_le_of_ne (add_nonneg (mul_self_nonneg _) (mul_self_nonneg _)) (Ne.symm hvv)
  have h3 : f.tol * f.tol * (n * n) ≤ (A * A + B * B) * (u.1 * u.1 + u.2 * u.2) := by
    have := mul_self_nonneg (A * u.1 + B * u.2)
    linarith [h2]
  have h4 : f.tol * f.tol * (99 / 100 * (99 / 100) * (u.1 * u.1 + u.2 * u.2)) < f.tol * f.tol * (n * n) := by
    refine mul_lt_mul_of_pos_left ?_ (mul_pos ht ht)
    linarith
  have h5 : (f.tol * (99 / 100) * (f.tol * (99 / 100))) * (u.1 * u.1 + u.2 * u.2) < (A * A + B * B) * (u.1 * u.1 + u.2 * u.2) := by
    linarith
  exact lt_of_mul_lt_mul_right h5 hU.le

/-- `_snap_point` raises nothing if no two parallel segments are nearer than the tolerance. -/
theorem snapPoint_total_wedge {c : Cfg K} (hg : ArgOk c.geo) (hnrm : NrmOk c) {r : Range K} (hr : r.Ok)
    (htiny : 2 * (c.geo.tiny * c.geo.tiny) < r.m * r.m) {f : Fr K} (hG : Good c r f) (hT : Tiled c.geo f.dec) {x : K × K}
    (hx : Bounded r.C x) (hp : f.dec.pid.live ≠ []) (hs : f.dec.sid.live ≠ [])
    (h1 : ∀ e ∈ f.dec.sid.live, ∀ e' ∈ f.dec.sid.live, e ≠ e' → ∀ u u', 0 ≤ u → u ≤ 1 → 0 ≤ u' → u' ≤ 1 →
      Near f x (at_ f e u) → Near f x (at_ f e' u') → ¬ Verif.Plane.Parallel (f.dec.vec e) (f.dec.vec e')) :
    ∃ s, snapPoint c x f = .ok s := by
  obtain ⟨po, so, hM⟩ := hG.mirror
  have ht : 0 < f.tol := lt_of_lt_of_le hr.m hM.tol.1
  obtain ⟨cs, hcs, hlive, _⟩ := points_candidates hr hG hx hp
  obtain ⟨o, ho⟩ := firstNear_total (f := f) (x := x) hlive
  unfold snapPoint
  rw [hcs]
  simp only [liftB, bind, Except.bind, ho]
  cases o with
  | some p => exact ⟨_, rfl⟩
  | none =>
    have hlong : ∀ e ∈ f.dec.sid.live, f.dec.vec e ≠ (0, 0) := by
      intro e he hh
      rw [Verif.Decomp.vectors_exact_partial hG.reach e he] at hh
      exact hT.drawn.fan.long e he hh
    obtain ⟨l, hl⟩ := closeSegments_total hr hG hx hlong hs
    obtain ⟨hmem, hnd, hfirst⟩ := closeSegments_spec hr hG hx hl
    obtain ⟨y, l', rfl, _, hmin⟩ := hfirst hs
    simp only [hl]
    obtain ⟨d, e, t⟩ := y
    obtain ⟨he, t0, t1, hd, hproj⟩ := hmem (d, e, t) (by simp)
    dsimp only at he t0 t1 hd hproj hmin ⊢
    by_cases hn : normLt d f.tol
    · rw [if_pos hn]
      have hne : Near f x (at_ f e t) := by unfold Near; rw [← hd]; exact hn.2
      cases hf : l'.filter (fun r => normLt r.1 f.tol) with
      | nil => exact ⟨_, rfl⟩
      | cons z zs =>
        have hz : z ∈ l'.filter (fun r => normLt r.1 f.tol) := by rw [hf]; simp
        rw [List.mem_filter] at hz
        obtain ⟨z1, z2, z3, z4, _⟩ := hmem z (by simp [hz.1])
        have hnz : Near f x (at_ f z.2.1 z.2.2) := by
          unfold Near
          rw [← z4]
          exact (of_decide_eq_true hz.2).2
        rw [List.map_cons, List.nodup_cons] at hnd
        have hez : e ≠ z.2.1 := fun hh => hnd.1 (List.mem_map.2 ⟨z, hz.1, hh.symm⟩)
        obtain ⟨u, hu⟩ := awayFrom_total hnrm ht x (h1 e he z.2.1 z1 hez t z.2.2 t0 t1 z2 z3 hne hnz)
        dsimp only
        rw [hu]
        exact ⟨_, rfl⟩
    · rw [if_neg hn]
      have hfar : f.tol * f.tol ≤ dist2 x (at_ f e t) := by
        rw [← hd]
        by_contra hh
        exact hn ⟨ht, not_le.1 hh⟩
      have hmm : r.m * r.m ≤ f.tol * f.tol := mul_self_le_mul_self hr.m.le hM.tol.1
      obtain ⟨q, hq, h2, h3⟩ := polygonBy_home hg hG hT he t0 t1 hproj (by rw [← hd]; exact hmin)
        (lt_of_lt_of_le htiny (hmm.trans hfar))
      rw [h2]
      simp only [polyContains_eq, Verif.Decomp.polyContains_exact hT.drawn.nested hq h3 hq, liftD]
      exact ⟨_, rfl⟩

/-- What `_snap_point` finds on a segment. -/
theorem snapPoint_segment {c : Cfg K} {r : Range K} (hr : r.Ok) {f : Fr K} (hG : Good c r f) {x : K × K} (hx : Bounded r.C x)
    {e : Id} {t : K} (h : snapPoint c x f = .ok (.segment e t)) :
    (e ∈ f.dec.sid.live ∧ 0 ≤ t ∧ t ≤ 1 ∧ Near f x (at_ f e t)) ∨
    ∃ e' ∈ f.dec.sid.live, e' ≠ e ∧ (∃ s, 0 ≤ s ∧ s ≤ 1 ∧ Near f x (at_ f e' s)) ∧ (∃ s, 0 ≤ s ∧ s ≤ 1 ∧ Near f x (at_ f e s)) ∧
      awayFrom c f x e e' = .ok t := by
  obtain ⟨po, so, hM⟩ := hG.mirror
  have ht : 0 < f.tol := lt_of_lt_of_le hr.m hM.tol.1
  unfold snapPoint at h
  simp only [bindOk] at h
  obtain ⟨cs, _, o, _, h⟩ := h
  cases o with
  | some p => simp at h
  | none =>
    simp only [bindOk] at h
    obtain ⟨l, hl, h⟩ := h
    obtain ⟨hmem, hnd, hfirst⟩ := closeSegments_spec hr hG hx hl
    cases l with
    | nil =>
      simp only [bindOk] at h
      obtain ⟨_, _, h⟩ := h
      cases h
    | cons y l' =>
      obtain ⟨d, e1, t1⟩ := y
      obtain ⟨he, k0, k1, hd, hproj⟩ := hmem (d, e1, t1) (by simp)
      dsimp only at h he k0 k1 hd hproj
      split at h
      · next hn =>
        have hne : Near f x (at_ f e1 t1) := by unfold Near; rw [← hd]; exact hn.2
        cases hf : l'.filter (fun r => normLt r.1 f.tol) with
        | nil =>
          simp only [hf] at h
          cases h
          exact Or.inl ⟨he, k0, k1, hne⟩
        | cons z zs =>
          have hz : z ∈ l'.filter (fun r => normLt r.1 f.tol) := by rw [hf]; simp
          rw [List.mem_filter] at hz
          obtain ⟨z1, z2, z3, z4, _⟩ := hmem z (by simp [hz.1])
          have hnz : Near f x (at_ f z.2.1 z.2.2) := by
            unfold Near
            rw [← z4]
            exact (of_decide_eq_true hz.2).2
          rw [List.map_cons, List.nodup_cons] at hnd
          have hez : z.2.1 ≠ e1 := fun hh => hnd.1 (List.mem_map.2 ⟨z, hz.1, hh⟩)
          simp only [hf, bindOk] at h
          obtain ⟨u, hu, h⟩ := h
          cases h
          exact Or.inr ⟨z.2.1, z1, hez, ⟨z.2.2, z2, z3, hnz⟩, ⟨t1, k0, k1, hne⟩, hu⟩
      · simp only [bindOk] at h
        obtain ⟨_, _, _, _, h⟩ := h
        split at h <;> cases h

/-- **C167.** A new point on a segment lies in a place of it nearer to `x` than the tolerance; or another segment is also nearer
to `x` than the tolerance, and then the distance of the new point from that segment is more than 99/100 of the tolerance. If the
norm is exact for that segment, the distance from its line is the tolerance, and the new point is on the side of `x`. -/
theorem add_point_wedge {c : Cfg K} {r : Range K} {f : Fr K} (hR : Run c r f) {x : K × K} (hx : Bounded r.C x) {p : Id}
    {f' : Fr K} (h : addPoint c x f = .ok (p, f')) (hnew : p ∉ f.dec.pid.live) (hseg : f'.dec.pseg p ≠ none) :
    dist2 x (f'.dec.xy p) < f.tol * f.tol ∨
    ∃ e ∈ f.dec.sid.live, (∃ s, 0 ≤ s ∧ s ≤ 1 ∧
        dist2 x (parametric (f.dec.xy (f.dec.vtx (e, false))) (f.dec.vec e) s) < f.tol * f.tol) ∧
      (∀ s, 0 ≤ s → s ≤ 1 → f.tol * (99 / 100) * (f.tol * (99 / 100)) <
        dist2 (f'.dec.xy p) (parametric (f.dec.xy (f.dec.vtx (e, false))) (f.dec.vec e) s)) ∧
      (f.dec.vec e ≠ (0, 0) → 0 < c.nrm ((f.dec.vec e).2, -(f.dec.vec e).1) →
        c.nrm ((f.dec.vec e).2, -(f.dec.vec e).1) * c.nrm ((f.dec.vec e).2, -(f.dec.vec e).1) = dot (f.dec.vec e) (f.dec.vec e) →
        let n := ((f.dec.vec e).2, -(f.dec.vec e).1)
        let d := fun z => dot (sub z (f.dec.xy (f.dec.vtx (e, false)))) n
        d (f'.dec.xy p) * d (f'.dec.xy p) = f.tol * f.tol * dot (f.dec.vec e) (f.dec.vec e) ∧ 0 ≤ d x * d (f'.dec.xy p)) := by
  have hG := hR.good
  obtain ⟨po, so, hM⟩ := hG.mirror
  have ht : 0 < f.tol := lt_of_lt_of_le hR.ok.m hM.tol.1
  unfold addPoint at h
  simp only [bindOk] at h
  obtain ⟨s, hs, h⟩ := h
  cases s with
  | point q =>
    cases h
    exact absurd (snapPoint_spec hR.ok hG hx hs).1 hnew
  | polygon q =>
    exfalso
    unfold addPt at h
    simp only [bindOk] at h
    obtain ⟨_, _, b, _, h⟩ := h
    cases h
    exact hseg (by simp [Verif.Decomp.addFreePoint])
  | segment e t =>
    simp only [bindOk] at h
    obtain ⟨⟨m, f1⟩, hm, h⟩ := h
    cases h
    have he : e ∈ f.dec.sid.live := (snapPoint_spec hR.ok hG hx hs).2.1
    have h0 : ¬ scaledLt t (dot (f.dec.vec e) (f.dec.vec e)) f.tol := by
      intro h0
      unfold pointOnSegment at hm
      dsimp only at hm
      rw [if_pos h0] at hm
      cases hm
      exact hnew (hG.reach.reach.inv.links.vlive (e, false) he)
    have h1 : ¬ scaledLt (1 - t) (dot (f.dec.vec e) (f.dec.vec e)) f.tol := by
      intro h1
      unfold pointOnSegment at hm
      dsimp only at hm
      rw [if_neg h0, if_pos h1] at hm
      cases hm
      exact hnew (hG.reach.reach.inv.links.vlive (e, true) he)
    have hxy : f1.dec.xy m.1 = at_ f e t := (pointOnSegment_split hR.ok.m hG he hm h0 h1).2.2.2.2.2.2.1
    rw [hxy]
    rcases snapPoint_segment hR.ok hG hx hs with ⟨_, _, _, hn⟩ | ⟨e', he', hne, hn', hn, hw⟩
    · exact Or.inl hn
    · refine Or.inr ⟨e', he', hn', fun s s0 s1 => awayFrom_far hw s0 s1, ?_⟩
      intro _ n0 n1
      have hside := awayFrom_side hw
      obtain ⟨q0, s, hs1, u1, u2⟩ := unitTo_cases c f x e'
      generalize c.nrm ((f.dec.vec e').2, -(f.dec.vec e').1) = n at n0 n1 u1 u2
      unfold dot at hside q0
      rw [u1, u2] at hside q0
      dsimp only
      rw [← n1]
      unfold dot
      dsimp only
      generalize sub (at_ f e t) (f.dec.xy (f.dec.vtx (e', false))) = y at hside ⊢
      generalize sub x (f.dec.xy (f.dec.vtx (e', false))) = z at q0 ⊢
      generalize f.dec.vec e' = u at hside q0 ⊢
      have a1 : s * (y.1 * u.2 + y.2 * -u.1) = f.tol * n := by
        have : (y.1 * (s * u.2 / n) + y.2 * (-(s * u.1) / n)) * n = f.tol * n := by rw [hside]
        have e : (y.1 * (s * u.2 / n) + y.2 * (-(s * u.1) / n)) * n = s * (y.1 * u.2 + y.2 * -u.1) := by
          field_simp
        rwa [e] at this
      have a2 : 0 ≤ s * (z.1 * u.2 + z.2 * -u.1) := by
        have := mul_nonneg q0 n0.le
        have e : (s * u.2 / n * z.1 + -(s * u.1) / n * z.2) * n = s * (z.1 * u.2 + z.2 * -u.1) := by
          field_simp
        rwa [e] at this
      constructor
      · have : (s * (y.1 * u.2 + y.2 * -u.1)) * (s * (y.1 * u.2 + y.2 * -u.1)) = f.tol * n * (f.tol * n) := by rw [a1]
        linear_combination this - ((y.1 * u.2 + y.2 * -u.1) * (y.1 * u.2 + y.2 * -u.1)) * hs1
      · have := mul_nonneg a2 (a1 ▸ (mul_pos ht n0).le : 0 ≤ s * (y.1 * u.2 + y.2 * -u.1))
        refine this.trans (le_of_eq ?_)
        linear_combination ((z.1 * u.2 + z.2 * -u.1) * (y.1 * u.2 + y.2 * -u.1)) * hs1

/-- **C168.** If at most one segment is nearer to `x` than the tolerance, the point that `add_point` returns is nearer to `x` than
twice the tolerance. -/
theorem add_point_near_partial {c : Cfg K} {r : Range K} {f : Fr K} (hR : Run c r f) {x : K × K} (hx : Bounded r.C x) {p : Id}
    {f' : Fr K} (h : addPoint c x f = .ok (p, f'))
    (hone : ∀ e ∈ f.dec.sid.live, ∀ e' ∈ f.dec.sid.live, ∀ s s', 0 ≤ s → s ≤ 1 → 0 ≤ s' → s' ≤ 1 →
      dist2 x (parametric (f.dec.xy (f.dec.vtx (e, false))) (f.dec.vec e) s) < f.tol * f.tol →
      dist2 x (parametric (f.dec.xy (f.dec.vtx (e', false))) (f.dec.vec e') s') < f.tol * f.tol → e = e') :
    dist2 x (f'.dec.xy p) < 2 * f.tol * (2 * f.tol) := by
  have hG := hR.good
  obtain ⟨po, so, hM⟩ := hG.mirror
  have ht : 0 < f.tol := lt_of_lt_of_le hR.ok.m hM.tol.1
  have htt := mul_pos ht ht
  have htri : ∀ y z : K × K, dist2 x y < f.tol * f.tol → dist2 y z < f.tol * f.tol → dist2 x z < 2 * f.tol * (2 * f.tol) := by
    intro y z h1 h2
    unfold dist2 at *
    have e1 := mul_self_nonneg ((x.1 - y.1) - (y.1 - z.1))
    have e2 := mul_self_nonneg ((x.2 - y.2) - (y.2 - z.2))
    linarith
  unfold addPoint at h
  simp only [bindOk] at h
  obtain ⟨s, hs, h⟩ := h
  cases s with
  | point q =>
    cases h
    have := (snapPoint_spec hR.ok hG hx hs).2
    unfold Near at this
    rw [dist2_comm] at this
    linarith
  | polygon q =>
    unfold addPt at h
    simp only [bindOk] at h
    obtain ⟨_, _, b, _, h⟩ := h
    cases h
    simp only [Verif.Decomp.addFreePoint, Function.update_self]
    have : dist2 x x = 0 := by simp [dist2]
    rw [this]
    linarith
  | segment e t =>
    simp only [bindOk] at h
    obtain ⟨⟨m, f1⟩, hm, h⟩ := h
    cases h
    rcases snapPoint_segment hR.ok hG hx hs with ⟨he, t0, t1, hn⟩ | ⟨e', he', hne, ⟨s', s0', s1', hn'⟩, ⟨s, s0, s1, hn⟩, hw⟩
    · have hV := Verif.Decomp.vectors_exact_partial hG.reach e he
      have hsc : ∀ u : K, 0 ≤ u → scaledLt u (dot (f.dec.vec e) (f.dec.vec e)) f.tol →
          u * u * dot (f.dec.vec e) (f.dec.vec e) < f.tol * f.tol := by
        intro u u0 hu
        unfold scaledLt at hu
        rw [if_pos ht] at hu
        rcases hu with hu | hu
        · rw [le_antisymm hu u0]
          simpa using htt
        · exact hu
      by_cases h0 : scaledLt t (dot (f.dec.vec e) (f.dec.vec e)) f.tol
      · unfold pointOnSegment at hm
        dsimp only at hm
        rw [if_pos h0] at hm
        cases hm
        refine htri _ _ hn (lt_of_le_of_lt (le_of_eq ?_) (hsc t t0 h0))
        unfold dist2 at_ parametric dot
        ring
      by_cases h1 : scaledLt (1 - t) (dot (f.dec.vec e) (f.dec.vec e)) f.tol
      · unfold pointOnSegment at hm
        dsimp only at hm
        rw [if_neg h0, if_pos h1] at hm
        cases hm
        refine htri _ _ hn (lt_of_le_of_lt (le_of_eq ?_) (hsc (1 - t) (by linarith) h1))
        unfold dist2 at_ parametric dot
        rw [hV]
        dsimp only
        ring
      · have hxy : f1.dec.xy m.1 = at_ f e t := (pointOnSegment_split hR.ok.m hG he hm h0 h1).2.2.2.2.2.2.1
        rw [hxy]
        unfold Near at hn
        linarith
    · exact absurd (hone e' he' e (snapPoint_spec hR.ok hG hx hs).2.1 s' s s0' s1' s0 s1 hn' hn) hne

end Verif.Front
