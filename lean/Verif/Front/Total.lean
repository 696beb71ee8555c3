import Verif.Front.Home
import Verif.Front.Wedge
import Verif.Plane.Total
import Verif.Decomp.TotalJoin
import Verif.Decomp.TotalBridge

/-! Valid calls of the frontend raise nothing. -/

namespace Verif.Front
open Verif.Decomp (St Id HE Geom segPt between Planar Tiled ArgOk FreeLine)
open Verif.Plane (parametric projectPoint intersection dist2)

variable {K : Type} [Field K] [LinearOrder K] [IsStrictOrderedRing K]

omit [LinearOrder K] [IsStrictOrderedRing K] [Field K] in
theorem exBind {α β : Type} {x : Except Err α} {f : α → Except Err β} {a : α} (hx : x = .ok a) (h : ∃ b, f a = .ok b) :
    ∃ b, (x >>= f) = .ok b := by
  obtain ⟨b, hb⟩ := h
  exact ⟨b, bindOk.2 ⟨a, hx, hb⟩⟩

omit [IsStrictOrderedRing K] in
theorem boxOf_total (f : Fr K) (p : K × K) (l : List (K × K)) : ∃ b, boxOf f (p :: l) = .ok b := ⟨_, rfl⟩

/-! ### The methods that change the decomposition and the tables -/

omit [IsStrictOrderedRing K] in
theorem addPt_total {x : K × K} {q : Id} {f : Fr K} (hq : q ∈ f.dec.qid.live) : ∃ r, addPt x q f = .ok r := by
  obtain ⟨b, hb⟩ := boxOf_total f x []
  unfold addPt
  exact exBind (a := ()) (key_ok.2 hq) (exBind hb ⟨_, rfl⟩)

/-- The length of the vector from `p` to `q` is not rounded to zero: one of the coordinates is longer than the limit of
`insert_vector` (point.py:60). -/
def Long (g : Geom K) (x y : K × K) : Prop := g.tiny < |y.1 - x.1| ∨ g.tiny < |y.2 - x.2|

theorem long_of_far {g : Geom K} {m : K} (ht : 2 * (g.tiny * g.tiny) < m) {x y : K × K} (h : m ≤ dist2 x y) : Long g x y := by
  unfold Long
  by_contra hh
  rw [not_or, not_lt, not_lt] at hh
  have h1 := mul_self_le_mul_self (abs_nonneg _) hh.1
  have h2 := mul_self_le_mul_self (abs_nonneg _) hh.2
  rw [abs_mul_abs_self] at h1 h2
  have : dist2 x y = (y.1 - x.1) * (y.1 - x.1) + (y.2 - x.2) * (y.2 - x.2) := by unfold dist2; ring
  linarith

/-- A new segment on a free line raises nothing. -/
theorem addSegment_total {c : Cfg K} (hg : ArgOk c.geo) (h0 : 0 ≤ c.geo.tiny) {f : Fr K} (hT : Tiled c.geo f.dec) {a b : Id}
    (ha : a ∈ f.dec.pid.live) (hb : b ∈ f.dec.pid.live) (hl : FreeLine f.dec a b) (hv : Long c.geo (f.dec.xy a) (f.dec.xy b)) :
    ∃ r, addSegment c a b f = .ok r := by
  obtain ⟨e, s', hs⟩ := Verif.Decomp.newSegment_total hg h0 hT ha hb hl hv
  obtain ⟨x, hx⟩ := boxOf_total f (f.dec.xy a) [f.dec.xy b]
  unfold addSegment
  exact exBind (a := ()) (key_ok.2 ha) (exBind (a := ()) (key_ok.2 hb) (exBind (liftD_ok.2 hs) (exBind hx ⟨_, rfl⟩)))

theorem Mirror.seg_row {r : Range K} {po so : List (Verif.Aabb.Op K)} {f : Fr K} (hM : Mirror r po so f) {e : Id} (he : e ∈ f.dec.sid.live) :
    e < f.sl.nBoxes ∧ e < f.sl.rows.length := by
  obtain ⟨b, hb⟩ := Option.ne_none_iff_exists'.1 ((hM.sdom e).2 he)
  have h := Verif.Aabb.inv_run so r.inf r.rt2 128 (by norm_num)
  have h1 := (h.live e b hb).2
  rw [hM.sl]
  exact ⟨h1, lt_of_lt_of_le h1 h.nle⟩

theorem Mirror.pt_row {r : Range K} {po so : List (Verif.Aabb.Op K)} {f : Fr K} (hM : Mirror r po so f) {p : Id} (hp : p ∈ f.dec.pid.live) :
    p < f.pl.nBoxes ∧ p < f.pl.rows.length := by
  obtain ⟨b, hb⟩ := Option.ne_none_iff_exists'.1 ((hM.pdom p).2 hp)
  have h := Verif.Aabb.inv_run po r.inf r.rt2 128 (by norm_num)
  have h1 := (h.live p b hb).2
  rw [hM.pl]
  exact ⟨h1, lt_of_lt_of_le h1 h.nle⟩

/-- `delete_segment` raises nothing for a segment that is not a bridge of an outer wire. -/
theorem rmSegment_total {c : Cfg K} {r : Range K} {f : Fr K} (hG : Good c r f) (hT : Tiled c.geo f.dec) {e : Id}
    (he : e ∈ f.dec.sid.live) (hb : NoBridge c f.dec e) : ∃ f', rmSegment c e f = .ok f' := by
  obtain ⟨po, so, hM⟩ := hG.mirror
  obtain ⟨s', hs⟩ := Verif.Decomp.deleteSegment_returns (g := c.geo) hT.drawn.nested he
    (fun hh => (hb hh).imp id And.right)
  unfold rmSegment
  exact exBind (a := ()) (key_ok.2 he) (exBind (liftB_ok.2 (if_pos (hM.seg_row he).2)) (exBind (liftD_ok.2 hs) ⟨_, rfl⟩))

theorem rmPt_total {c : Cfg K} {r : Range K} {f : Fr K} (hG : Good c r f) (hT : Tiled c.geo f.dec) {p : Id}
    (hp : p ∈ f.dec.pid.live) (hf : f.dec.pseg p = none) : ∃ f', rmPt p f = .ok f' := by
  obtain ⟨po, so, hM⟩ := hG.mirror
  obtain ⟨s', hs⟩ := Verif.Decomp.removeFreePoint_total hT.drawn.nested.free hp hf
  unfold rmPt
  exact exBind (a := ()) (key_ok.2 hp) (exBind (liftB_ok.2 (if_pos (hM.pt_row hp).2)) (exBind (liftD_ok.2 hs) ⟨_, rfl⟩))

/-- The segments of the list are removed, the others stay. -/
theorem rmSegments_total {c : Cfg K} (hg : ArgOk c.geo) (heps : 0 < c.geo.eps) {r : Range K} (hm : 0 < r.m) : ∀ {l : List HE} {f : Fr K}, Good c r f →
    Tiled c.geo f.dec → (∀ d ∈ l, d.1 ∈ f.dec.sid.live) → (l.map Prod.fst).Nodup → NoBridges c l f →
    ∃ f', rmSegments c l f = .ok f' ∧ f'.dec.pid = f.dec.pid ∧ f'.dec.vtx = f.dec.vtx ∧
      ∀ i, i ∈ f'.dec.sid.live ↔ i ∈ f.dec.sid.live ∧ i ∉ l.map Prod.fst
  | [], f, _, _, _, _, _ => ⟨f, rfl, rfl, rfl, by simp⟩
  | d :: l, f, hG, hT, hl, hnd, hb => by
    have he := hl d (by simp)
    obtain ⟨f1, h1⟩ := rmSegment_total hG hT he hb.1
    have hG1 := prims_good hm (.single (.rmSegment h1)) hG
    have hT1 := rmSegment_tiled hg heps hm hG h1 hb.1 hT
    have h1' := h1
    simp only [rmSegment, bindOk, liftD_ok, liftB_ok, key_ok] at h1'
    obtain ⟨_, _, sl, _, s, hs, h1'⟩ := h1'
    have hD := (Verif.Decomp.deleteSegment_next hs hG.reach.reach.inv he).1
    rw [List.map_cons, List.nodup_cons] at hnd
    have e1 : f1.dec = s := by cases h1'; rfl
    have hlive : ∀ i, i ∈ f1.dec.sid.live ↔ i ≠ d.1 ∧ i ∈ f.dec.sid.live := by rw [e1]; exact hD.live
    obtain ⟨f', k1, k2, k3, k4⟩ := rmSegments_total hg heps hm hG1 hT1 (fun d' hd' => (hlive _).2
      ⟨fun hh => hnd.1 (hh ▸ List.mem_map_of_mem hd'), hl d' (by simp [hd'])⟩) hnd.2 (hb.2 f1 h1)
    refine ⟨f', by rw [rmSegments, bindOk]; exact ⟨f1, h1, k1⟩, k2.trans (by rw [e1]; exact hD.pid), k3.trans (by rw [e1]; exact hD.vtx),
      fun i => ?_⟩
    rw [k4, hlive, List.map_cons, List.mem_cons]
    tauto

/-- `delete_point` raises nothing if it removes no bridges of outer wires. -/
theorem deletePoint_total {c : Cfg K} (hg : ArgOk c.geo) (heps : 0 < c.geo.eps) {r : Range K} (hm : 0 < r.m) {f : Fr K} (hG : Good c r f)
    (hT : Tiled c.geo f.dec)
    {p : Id} (hp : p ∈ f.dec.pid.live)
    (hb : ∀ d l, f.dec.pseg p = some d → Verif.Decomp.around f.dec d = .ok l → NoBridges c l f) : ∃ f', deletePoint c p f = .ok f' := by
  have hL := hT.drawn.links
  unfold deletePoint
  cases hps : f.dec.pseg p with
  | none =>
    obtain ⟨f', h⟩ := rmPt_total hG hT hp hps
    exact ⟨f', h⟩
  | some d =>
    obtain ⟨k1, k2⟩ := hL.pseg_vtx hp (by simp) hps
    obtain ⟨m, hr⟩ := hL.ring p hp
    have hd := (hr.1.mem d).2 ⟨k1, k2, by simp⟩
    obtain ⟨l', h1, _, h2, h3⟩ := Verif.Decomp.around_ring hL.sids hr.1 hd
    have hmem : ∀ d', d' ∈ d :: l' ↔ d'.1 ∈ f.dec.sid.live ∧ f.dec.vtx d' = p := by
      intro d'
      rw [h2.mem_iff, hr.1.mem]
      simp
    have hnd : ((d :: l').map Prod.fst).Nodup := by
      refine List.Nodup.map_on ?_ h3
      rintro ⟨x, v⟩ hx ⟨y, w⟩ hy hxy
      dsimp only at hxy
      subst hxy
      by_contra hvw
      have hv : w = !v := by
        cases v <;> cases w <;> simp_all
      subst hv
      have e1 := ((hmem _).1 hx).2
      have e2 := ((hmem _).1 hy).2
      have := hL.vne x ((hmem _).1 hx).1
      cases v
      · exact this (e1.trans e2.symm)
      · exact this (e2.trans e1.symm)
    obtain ⟨f1, g1, g2, g3, g4⟩ := rmSegments_total hg heps hm hG hT (fun d' hd' => ((hmem d').1 hd').1) hnd (hb d _ hps h1)
    have hG1 := prims_good hm (rmSegments_prims g1) hG
    have hT1 := rmSegments_tiled hg heps hm hG g1 (hb d _ hps h1) hT
    have hp1 : p ∈ f1.dec.pid.live := by rw [g2]; exact hp
    have hf1 : f1.dec.pseg p = none := by
      by_contra hh
      obtain ⟨d', hd'⟩ := Option.ne_none_iff_exists'.1 hh
      obtain ⟨j1, j2⟩ := hT1.drawn.links.pseg_vtx hp1 (by simp) hd'
      rw [g4] at j1
      rw [g3] at j2
      exact j1.2 (List.mem_map_of_mem ((hmem d').2 ⟨j1.1, j2⟩))
    obtain ⟨f', h⟩ := rmPt_total hG1 hT1 hp1 hf1
    exact exBind (liftD_ok.2 h1) (exBind g1 ⟨f', h⟩)

/-! ### Points -/

omit [IsStrictOrderedRing K] in
theorem pointOnSegment_total {c : Cfg K} {f : Fr K} (hT : Tiled c.geo f.dec) {e : Id}
    (he : e ∈ f.dec.sid.live) (t : K) : ∃ m, pointOnSegment e t f = .ok m := by
  have hN := hT.drawn.nested
  unfold pointOnSegment
  dsimp only
  split
  · exact ⟨_, rfl⟩
  split
  · exact ⟨_, rfl⟩
  have hq : 0 ∈ f.dec.qid.live := hN.nest.q0
  generalize parametric (f.dec.xy (f.dec.vtx (e, false))) (f.dec.vec e) t = x
  obtain ⟨b, hb⟩ := boxOf_total f x []
  have hadd : addPt x 0 f = .ok ((Verif.Decomp.addFreePoint x 0 f.dec).1, { f with
      dec := (Verif.Decomp.addFreePoint x 0 f.dec).2, pl := f.pl.add (Verif.Decomp.addFreePoint x 0 f.dec).1 b }) := by
    unfold addPt
    exact bindOk.2 ⟨(), key_ok.2 hq, bindOk.2 ⟨b, hb, rfl⟩⟩
  refine exBind hadd ?_
  have hs : Verif.Decomp.step c.geo f.dec (.addPoint x 0) = .ok (Verif.Decomp.addFreePoint x 0 f.dec).2 := rfl
  have hN' := Verif.Decomp.step_nested hs hN ⟨trivial, hq⟩
  obtain ⟨k1, k2, k3⟩ := Verif.Decomp.Ids.append_ok hN.inv.pids
  have hmid : f.dec.pid.append.1 ∈ (Verif.Decomp.addFreePoint x 0 f.dec).2.pid.live := by
    change _ ∈ f.dec.pid.append.2.live
    rw [k2]
    simp
  have hfree : (Verif.Decomp.addFreePoint x 0 f.dec).2.pseg f.dec.pid.append.1 = none := by
    simp [Verif.Decomp.addFreePoint]
  obtain ⟨y, hy⟩ := Verif.Decomp.splitSegment_total hN' (e := e) he hmid hfree
  dsimp only
  refine Exists.elim ?_ (fun z hz => exBind (a := z) hz ⟨_, rfl⟩)
  unfold splitSegment
  obtain ⟨b', hb'⟩ := boxOf_total { f with
      dec := (Verif.Decomp.addFreePoint x 0 f.dec).2, pl := f.pl.add (Verif.Decomp.addFreePoint x 0 f.dec).1 b }
    (y.2.xy (y.2.vtx (y.1, false))) [y.2.xy (y.2.vtx (y.1, true))]
  exact exBind (a := ()) (key_ok.2 he) (exBind (a := ()) (key_ok.2 hmid) (exBind (liftD_ok.2 hy) (exBind hb' ⟨_, rfl⟩)))

/-- A point that can be added: a table that is empty was never used, and a point is nearer than
the tolerance or no two parallel segments are. -/
structure Addable (f : Fr K) (x : K × K) : Prop where
  pts : f.dec.pid.live ≠ [] ∨ f.pl.nBoxes = 0
  segs : f.dec.sid.live ≠ [] ∨ f.sl.nBoxes = 0
  one : (∃ p ∈ f.dec.pid.live, Near f x (f.dec.xy p)) ∨
    ∀ e ∈ f.dec.sid.live, ∀ e' ∈ f.dec.sid.live, e ≠ e' → ∀ u u', 0 ≤ u → u ≤ 1 → 0 ≤ u' → u' ≤ 1 → Near f x (at_ f e u) →
      Near f x (at_ f e' u') → ¬ Verif.Plane.Parallel (f.dec.vec e) (f.dec.vec e')

omit [IsStrictOrderedRing K] in
theorem closest_unused {t : Verif.Aabb.Lookup K} (h : t.nBoxes = 0) (p : Verif.Aabb.Pt K) : t.closest p = .ok [] := by
  unfold Verif.Aabb.Lookup.closest
  simp [h]

theorem snapPoint_returns {c : Cfg K} (hg : ArgOk c.geo) (hnrm : NrmOk c) {r : Range K} (hr : r.Ok) (htiny : 2 * (c.geo.tiny * c.geo.tiny) < r.m * r.m)
    {f : Fr K} (hG : Good c r f) (hT : Tiled c.geo f.dec) {x : K × K} (hx : Bounded r.C x) (hA : Addable f x) :
    ∃ s, snapPoint c x f = .ok s := by
  obtain ⟨po, so, hM⟩ := hG.mirror
  rcases hA.one with ⟨p, hp, hn⟩ | hone
  · obtain ⟨q, _, _, hq⟩ := snap_near (c := c) hr hG hx ⟨p, hp, by unfold Near; rw [dist2_comm]; exact hn⟩
    exact ⟨_, hq⟩
  by_cases hs : f.dec.sid.live = []
  · have hu : f.sl.nBoxes = 0 := hA.segs.resolve_left (fun h => h hs)
    obtain ⟨cs, hcs, hlive⟩ : ∃ cs, f.pl.closest (toPt x) = .ok cs ∧ ∀ p ∈ cs, p ∈ f.dec.pid.live := by
      rcases hA.pts with h | h
      · obtain ⟨cs, h1, h2, _⟩ := points_candidates hr hG hx h
        exact ⟨cs, h1, h2⟩
      · exact ⟨[], closest_unused h _, by simp⟩
    obtain ⟨o, ho⟩ := firstNear_total (f := f) (x := x) hlive
    have hl : closeSegments f x = .ok [] := by
      unfold closeSegments
      rw [closest_unused hu]
      rfl
    unfold snapPoint
    rw [hcs]
    simp only [liftB, bind, Except.bind, ho]
    cases o with
    | some p => exact ⟨_, rfl⟩
    | none =>
      simp only [hl, check, hs, if_true]
      exact ⟨_, rfl⟩
  · obtain ⟨e, he⟩ := List.exists_mem_of_ne_nil _ hs
    exact snapPoint_total_wedge hg hnrm hr htiny hG hT hx (List.ne_nil_of_mem (hT.drawn.links.vlive (e, false) he)) hs hone

theorem snapPoint_polygon {c : Cfg K} (hg : ArgOk c.geo) {r : Range K} (hr : r.Ok) (htiny : 2 * (c.geo.tiny * c.geo.tiny) < r.m * r.m)
    {f : Fr K} (hG : Good c r f) (hT : Tiled c.geo f.dec) {x : K × K} (hx : Bounded r.C x) {q : Id}
    (h : snapPoint c x f = .ok (.polygon q)) : q ∈ f.dec.qid.live := by
  obtain ⟨po, so, hM⟩ := hG.mirror
  have ht : 0 < f.tol := lt_of_lt_of_le hr.m hM.tol.1
  unfold snapPoint at h
  simp only [bindOk] at h
  obtain ⟨cs, _, o, _, h⟩ := h
  cases o with
  | some p => simp at h
  | none =>
    simp only [bindOk] at h
    obtain ⟨l, hl, h⟩ := h
    obtain ⟨hmem, hnd, hfirst⟩ := closeSegments_spec hr hG hx hl
    cases l with
    | nil =>
      simp only [bindOk] at h
      obtain ⟨_, _, h⟩ := h
      cases h
      exact hT.drawn.nested.nest.q0
    | cons y l' =>
      obtain ⟨d, e, t⟩ := y
      obtain ⟨he, t0, t1, hd, hproj⟩ := hmem (d, e, t) (by simp)
      obtain ⟨y', l'', heq, _, hmin⟩ := hfirst (List.ne_nil_of_mem he)
      cases heq
      dsimp only at h he t0 t1 hd hproj hmin
      split at h
      · exfalso
        split at h
        · cases h
        · simp only [bindOk] at h
          obtain ⟨_, _, h⟩ := h
          cases h
      · next hn =>
        have hfar : f.tol * f.tol ≤ dist2 x (at_ f e t) := by
          rw [← hd]
          by_contra hh
          exact hn ⟨ht, not_le.1 hh⟩
        have hmm : r.m * r.m ≤ f.tol * f.tol := mul_self_le_mul_self hr.m.le hM.tol.1
        obtain ⟨q', hq, h2, h3⟩ := polygonBy_home hg hG hT he t0 t1 hproj (by rw [← hd]; exact hmin)
          (lt_of_lt_of_le htiny (hmm.trans hfar))
        simp only [bindOk] at h
        obtain ⟨q1, h1, b, _, h⟩ := h
        rw [h2] at h1
        cases h1
        split at h
        · cases h
          exact hq
        · cases h

/-- `add_point` raises nothing. -/
theorem addPoint_total {c : Cfg K} (hg : ArgOk c.geo) (hnrm : NrmOk c) {r : Range K} (hr : r.Ok) (htiny : 2 * (c.geo.tiny * c.geo.tiny) < r.m * r.m)
    {f : Fr K} (hG : Good c r f) (hT : Tiled c.geo f.dec) {x : K × K} (hx : Bounded r.C x) (hA : Addable f x) :
    ∃ p, addPoint c x f = .ok p := by
  obtain ⟨s, hs⟩ := snapPoint_returns hg hnrm hr htiny hG hT hx hA
  unfold addPoint
  refine exBind hs ?_
  cases s with
  | point p => exact ⟨_, rfl⟩
  | segment e t =>
    obtain ⟨m, hm⟩ := pointOnSegment_total hT (snapPoint_spec hr hG hx hs).2.1 t
    exact exBind hm ⟨_, rfl⟩
  | polygon q => exact addPt_total (snapPoint_polygon hg hr htiny hG hT hx hs)

end Verif.Front
