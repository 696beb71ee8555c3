import Verif.Plane.TiledDel
import Verif.Plane.Half

/-! Points on segments in a drawing with the right polygons. -/

namespace Verif.Decomp
open Verif.Plane

theorem splitSegment_freed {K : Type} [Field K] {e mid n : Id} {s s' : St K} (h : splitSegment e mid s = .ok (n, s')) :
    Freed s s' e := by
  unfold splitSegment at h
  simp only [bind_ok] at h
  obtain ⟨bi, _, s1, h1, s2, h2, ⟨m, s3⟩, h3, s4, h4, s5, h5, h6⟩ := h
  simp only [Except.ok.injEq, Prod.mk.injEq] at h6
  obtain ⟨rfl, rfl⟩ := h6
  refine (disconnectVtx_freed h1).1.le ?_
  have k2 : PpLe s1 s2 := by
    obtain ⟨_, rfl⟩ := delKey_ok h2
    exact .of rfl
  have k3 := makeSegment_le h3
  have k4 := connectVtx_le h4
  have k5 : PpLe s4 s5 := by
    unfold connectEnd at h5
    split at h5
    · simp only [bind_ok] at h5
      obtain ⟨_, _, h5⟩ := h5
      exact connectFree_le h5
    · exact connectVtx_le h5
  intro p r k
  exact k2 p r (k3 p r (k4 p r (k5 p r k)))

section
variable {K : Type}

theorem connectEnd_le {h : HE} {i : Option Ins} {e : Id} {w : Option Id} {s s' : St K} (hs : connectEnd h i e w s = .ok s') :
    PpLe s s' ∧ s'.vtx = s.vtx := by
  unfold connectEnd at hs
  cases i with
  | none =>
    simp only [bind_ok] at hs
    obtain ⟨_, _, hs⟩ := hs
    refine ⟨connectFree_le hs, ?_⟩
    unfold connectFree setNext at hs
    simp only [bind_ok, check_ok, Except.ok.injEq] at hs
    obtain ⟨s1, h1, s2, ⟨_, _, rfl⟩, rfl⟩ := hs
    obtain ⟨pp, fp, rfl⟩ := joinSegment_eq h1
    rfl
  | some i =>
    refine ⟨connectVtx_le hs, ?_⟩
    dsimp only at hs
    unfold connectVtx setNext at hs
    simp only [bind_ok, check_ok, Except.ok.injEq] at hs
    obtain ⟨s1, h1, s2, ⟨_, _, rfl⟩, s3, ⟨_, _, rfl⟩, rfl⟩ := hs
    obtain ⟨pp, fp, rfl⟩ := joinSegment_eq h1
    rfl

/-- Which points can be free after `join_segments`: the points of the removed segment, and the ones that were. -/
theorem joinSegments_freed [Field K] {mid e0 e1 : Id} (hne : e0 ≠ e1) {s s' : St K} (h : joinSegments mid e0 e1 s = .ok s') {p r : Id}
    (hr : s'.ppoly p = some r) : s.ppoly p = some r ∨ (∃ v, s.vtx (e1, v) = p) ∨ p = mid := by
  unfold joinSegments at h
  simp only [bind_ok, check_ok, Except.ok.injEq] at h
  obtain ⟨s1, k1, s2, k0, _, c1, _, c2, bi, hbi, s3, h3, s4, h4, p', hp, s5, h5, s6, h6, s7, h7, s8, h8, q, hq, h9⟩ := h
  obtain ⟨_, rfl⟩ := delKey_ok k1
  obtain ⟨_, rfl⟩ := delKey_ok k0
  obtain ⟨f3, v3, _⟩ := disconnectVtx_freed h3
  obtain ⟨f4, v4, _⟩ := disconnectVtx_freed h4
  obtain ⟨f5, v5⟩ := connectEnd_le h5
  obtain ⟨w6, _, e6⟩ := fixWireSeg_ok h6
  obtain ⟨w7, _, e7⟩ := fixWireSeg_ok h7
  have f8 := destroySegment_freed h8
  by_cases hpm : p = mid
  · exact Or.inr (Or.inr hpm)
  have v4' : s4.vtx = s.vtx := v4.trans v3
  have v7 : ∀ v, s7.vtx (e1, v) = s.vtx (e1, v) := by
    intro v
    rw [e7, e6]
    show s5.vtx (e1, v) = _
    rw [v5]
    show upd s4.vtx _ _ (e1, v) = _
    rw [upd, Function.update_of_ne (by simp [hne.symm]), v4']
  have p7 : s7.ppoly = s5.ppoly := by rw [e7, e6]
  have h8' : s8.ppoly p = some r := by
    unfold setPolygon at h9
    simp only [bind_ok, Except.ok.injEq] at h9
    obtain ⟨t, ht, rfl⟩ := h9
    obtain ⟨fp, rfl⟩ := leavePoly_eq ht
    simpa [upd, hpm] using hr
  rcases f8 p r h8' with k | ⟨⟨v, k⟩, _⟩
  · have k' : s7.ppoly p = some r := k
    rw [p7] at k'
    rcases f4 p r (f5 p r k') with k | ⟨⟨v, k⟩, _⟩
    · rcases f3 p r k with k | ⟨⟨v, k⟩, _⟩
      · exact Or.inl k
      · exact Or.inr (Or.inl ⟨v, k⟩)
    · rw [v3] at k
      exact Or.inr (Or.inl ⟨v, k⟩)
  · have k' : s7.vtx (e1, v) = p := k
    exact Or.inr (Or.inl ⟨v, (v7 v).symm.trans k'⟩)

end

section
variable {K : Type} [Field K] [LinearOrder K] [IsStrictOrderedRing K]
variable {g : Geom K}

/-- `_point_on_segment` (polygons.py:541-560) without its tolerance: a point inside of a segment divides it, and all points off the
segments stay in their polygon. -/
theorem pointOn_parts (hg : ArgOk g) {e q n : Id} {t : K} {s s' : St K} (h : Tiled g s) (he : e ∈ s.sid.live) (hq : q ∈ s.qid.live)
    (t0 : 0 < t) (t1 : t < 1) (hs : splitSegment e s.pid.append.1 (addFreePoint (segPt s e t) q s).2 = .ok (n, s')) :
    Tiled g s' ∧ s'.qid = s.qid ∧ ∀ x, Off s x → ∀ r, Exact s x r → Exact s' x r := by
  have hN := h.drawn.nested
  have hL := hN.inv.links
  obtain ⟨k1, k2, k3⟩ := Ids.append_ok hN.inv.pids
  generalize hm : s.pid.append.1 = m at *
  generalize hs1 : (addFreePoint (segPt s e t) q s).2 = s1 at *
  have hst : step g s (.addPoint (segPt s e t) q) = .ok s1 := by rw [← hs1]; rfl
  have hN1 := step_nested hst hN ⟨trivial, hq⟩
  have hF1 := step_fan hg.toAngleOk hst hN.inv trivial trivial h.drawn.fan
  have hx : ∀ p ∈ s.pid.live, s1.xy p = s.xy p := fun p hp => by
    have : p ≠ s.pid.append.1 := fun hh => k1 (by rw [← hm, ← hh]; exact hp)
    simp [← hs1, addFreePoint, upd, this]
  have hxm : s1.xy m = segPt s e t := by simp [← hs1, ← hm, addFreePoint, upd]
  have hpl : ∀ p, p ∈ s1.pid.live ↔ p = m ∨ p ∈ s.pid.live := fun p => by
    rw [← hs1]
    show p ∈ s.pid.append.2.live ↔ _
    rw [k2]
    simp [or_comm]
  have hsid : s1.sid = s.sid := by rw [← hs1]; rfl
  have hvtx : s1.vtx = s.vtx := by rw [← hs1]; rfl
  have hwire : s1.wire = s.wire := by rw [← hs1]; rfl
  have hpm : s1.pseg m = none := by simp [← hs1, ← hm, addFreePoint, upd]
  have hpp : ∀ p, p ≠ m → s1.ppoly p = s.ppoly p := fun p hp => by
    simp [← hs1, addFreePoint, upd, hm, hp]
  have h1 : s1.wid = s.wid := by rw [← hs1]; rfl
  have h2 : s1.parent = s.parent := by rw [← hs1]; rfl
  have h3 : s1.outer = s.outer := by rw [← hs1]; rfl
  have h4 : s1.wpoly = s.wpoly := by rw [← hs1]; rfl
  have h5 : s1.qid = s.qid := by rw [← hs1]; rfl
  have hml : m ∈ s1.pid.live := (hpl m).2 (Or.inl rfl)
  have he1 : e ∈ s1.sid.live := hsid ▸ he
  have hst1 : step g s1 (.splitSegment e m) = .ok s' := by simp only [step, hs]; rfl
  have hbt : Between (s1.xy (s1.vtx (e, false))) (s1.xy m) (s1.xy (s1.vtx (e, true))) := by
    refine ⟨t, t0, t1, ?_⟩
    rw [hxm, hvtx, hx _ (hL.vlive (e, false) he), hx _ (hL.vlive (e, true) he)]
    rfl
  have hN' := step_nested hst1 hN1 ⟨⟨he1, hml, hpm⟩, trivial⟩
  have hF' := step_fan hg.toAngleOk hst1 hN1.inv ⟨he1, hml, hpm⟩ hbt hF1
  obtain ⟨_, _, hS⟩ := splitSegment_eff hs hN1.inv.links he1 hml hpm hN1.inv.free (by simp)
  have hen : e ≠ n := fun hh => hS.fresh (hh ▸ he1)
  have hnl : n ∉ s.sid.live := hsid ▸ hS.fresh
  have ho : ∀ d : HE, d.1 ∈ s.sid.live → d ≠ (e, true) → s'.vtx d = s.vtx d := fun d hd hne => by
    rw [hS.vo d hne fun hh => hnl (hh ▸ hd), hvtx]
  have hxv : ∀ d : HE, d.1 ∈ s.sid.live → s'.xy (s.vtx d) = s.xy (s.vtx d) := fun d hd => by
    rw [hS.xy]; exact hx _ (hL.vlive d hd)
  have hP' : Planar s' := by
    refine h.drawn.planar.split hL (n := n) (m := m) he t0 t1 hnl (fun p => by rw [hS.pid]; exact hpl p)
      (fun p hp => by rw [hS.xy]; exact hx p hp) (by rw [hS.xy]; exact hxm) (fun i => by rw [hS.live, hsid, or_comm])
      (fun i hi hie v => ho (i, v) hi fun hh => hie (congrArg Prod.fst hh)) (ho (e, false) he (by simp)) hS.ve hS.vn0
      (by rw [hS.vn1, hvtx])
  have hD' : Drawn g s' := ⟨hN', hP', hF'⟩
  have hH : Halved s s' (e, true) (n, true) := by
    refine ⟨he, hnl, fun j => by rw [hS.live, hsid], ?_, ?_, ?_, ⟨t, t0, t1, ?_⟩, ?_, ?_, ?_, ?_⟩
    · show s'.xy (s'.vtx (e, false)) = _
      rw [ho (e, false) he (by simp)]
      exact hxv (e, false) he
    · show s'.xy (s'.vtx (e, true)) = s'.xy (s'.vtx (n, false))
      rw [hS.ve, hS.vn0]
    · show s'.xy (s'.vtx (n, true)) = _
      rw [hS.vn1, hvtx]
      exact hxv (e, true) he
    · show s'.xy (s'.vtx (e, true)) = _
      rw [hS.ve, hS.xy, hxm, onDart_seg]
      simp
    · intro d hd hne
      rw [ho d hd fun hh => hne (congrArg Prod.fst hh)]
      exact hxv d hd
    · intro d hd
      rw [hS.wo d fun hh => hnl (hh ▸ hd), hwire]
    · rw [hS.wn true, hS.wo _ hen]
    · show s'.wire (n, false) = s'.wire (e, false)
      rw [hS.wn false, hS.wo _ hen]
  refine ⟨⟨hD', hH.good hg hD' (hS.wid.trans h1) (hS.parent.trans h2) (hS.outer.trans h3) (hS.wpoly.trans h4) h.good,
    fun p hp r hr => ?_⟩, hS.qid.trans h5, fun x hx r k => k.frame (hS.wid.trans h1) (hH.cnt hx) (hS.parent.trans h2) (hS.outer.trans h3)⟩
  have hps : s'.pseg p = none := (hN'.free.seg p hp).2 (by rw [hr]; simp)
  have hno := hN'.inv.links.no_seg hp (by simp) hps
  have hpm' : p ≠ m := by
    rintro rfl
    exact hno (e, true) ((hS.live e).2 (Or.inl he1)) hS.ve
  have hp' : p ∈ s.pid.live := ((hpl p).1 (hS.pid ▸ hp)).resolve_left hpm'
  rcases splitSegment_freed hs p r hr with k | ⟨⟨v, k⟩, _⟩
  · rw [hpp p hpm'] at k
    have hoff : Off s (s.xy p) := free_off h.drawn hp' ((hN.free.seg p hp').2 (by rw [k]; simp))
    rw [hS.xy, hx p hp']
    exact (h.reg p hp' r k).frame (hS.wid.trans h1) (hH.cnt hoff) (hS.parent.trans h2) (hS.outer.trans h3)
  · exfalso
    rw [hvtx] at k
    cases v
    · exact hno (e, false) ((hS.live e).2 (Or.inl he1)) ((ho (e, false) he (by simp)).trans k)
    · exact hno (n, true) ((hS.live n).2 (Or.inr rfl)) (by rw [hS.vn1, hvtx]; exact k)

theorem pointOn_tiled (hg : ArgOk g) {e q n : Id} {t : K} {s s' : St K} (h : Tiled g s) (he : e ∈ s.sid.live) (hq : q ∈ s.qid.live)
    (t0 : 0 < t) (t1 : t < 1) (hs : splitSegment e s.pid.append.1 (addFreePoint (segPt s e t) q s).2 = .ok (n, s')) : Tiled g s' :=
  (pointOn_parts hg h he hq t0 t1 hs).1

/-- Two segments joined in a point that is removed. -/
theorem Planar.join {s t : St K} {x y : HE} (hP : Planar t) (hL : Links t ∅ ∅) (h : Halved s t x y) {m : Id} (hm : t.vtx x = m)
    (hp : ∀ p, p ∈ s.pid.live ↔ p ≠ m ∧ p ∈ t.pid.live) (hx : s.xy = t.xy)
    (hv : ∀ d : HE, d.1 ∈ s.sid.live → d ≠ x → s.vtx d = t.vtx d) (hvx : s.vtx x = t.vtx y)
    (hmy : t.vtx (flip y) = m) (h2 : ∀ d : HE, d.1 ∈ t.sid.live → t.vtx d = m → d = x ∨ d = flip y) : Planar s := by
  -- a point of a segment is on a segment of `t`
  have back : ∀ e ∈ s.sid.live, ∀ u, 0 ≤ u → u ≤ 1 → ∃ j ∈ t.sid.live, (j = e ∨ (e = x.1 ∧ j = y.1)) ∧ ∃ u', 0 ≤ u' ∧ u' ≤ 1 ∧
      segPt s e u = segPt t j u' := by
    intro e he u u0 u1
    by_cases hex : e = x.1
    · subst hex
      have hon : OnSeg (org s x) (dst s x) (segPt s x.1 u) := onSeg_dart.2 ⟨u, u0, u1, rfl⟩
      rcases onSeg_halves h.mid hon with k | k
      · rw [← h.o1] at k
        obtain ⟨u', a, b, c⟩ := onSeg_dart.1 k
        exact ⟨x.1, (h.iff _).2 (Or.inl h.was), Or.inl rfl, u', a, b, c⟩
      · rw [h.o2, ← h.o3] at k
        obtain ⟨u', a, b, c⟩ := onSeg_dart.1 k
        exact ⟨y.1, (h.iff _).2 (Or.inr rfl), Or.inr ⟨rfl, rfl⟩, u', a, b, c⟩
    · refine ⟨e, (h.iff e).2 (Or.inl he), Or.inl rfl, u, u0, u1, ?_⟩
      exact congrFun (segPt_congr (fun v => hv (e, v) he fun hh => hex (congrArg Prod.fst hh)) (fun v => by rw [hx])) u
  -- an end of that segment that is not `m` is an end of the segment
  have ends : ∀ {e j : Id}, e ∈ s.sid.live → (j = e ∨ (e = x.1 ∧ j = y.1)) → ∀ v, t.vtx (j, v) ≠ m → ∃ w, s.vtx (e, w) = t.vtx (j, v) := by
    rintro e j he (rfl | ⟨rfl, rfl⟩) v hne
    · exact ⟨v, hv (j, v) he fun hh => hne (hh ▸ hm)⟩
    · rcases eq_or_flip (h := ((y.1, v) : HE)) (k := y) rfl with k | k
      · rw [k]; exact ⟨x.2, hvx⟩
      · rw [k] at hne; exact absurd hmy hne
  constructor
  · intro p hp1 q hq hh
    rw [hx] at hh
    exact hP.pts p ((hp p).1 hp1).2 q ((hp q).1 hq).2 hh
  · intro p hp1 e he u u0 u1 hh
    obtain ⟨j, hj, hje, u', a, b, c⟩ := back e he u u0 u1
    rw [c, hx] at hh
    obtain ⟨v, hv'⟩ := hP.on p ((hp p).1 hp1).2 j hj u' a b hh
    obtain ⟨w, hw⟩ := ends he hje v (by rw [hv']; exact ((hp p).1 hp1).1)
    exact ⟨w, hw.trans hv'⟩
  · intro e he e' he' hne u u' u0 u1 u0' u1' hh
    obtain ⟨j, hj, hje, w, a, b, c⟩ := back e he u u0 u1
    obtain ⟨j', hj', hje', w', a', b', c'⟩ := back e' he' u' u0' u1'
    have hjj : j ≠ j' := by
      rintro rfl
      rcases hje with k | ⟨k1, k2⟩ <;> rcases hje' with l | ⟨l1, l2⟩
      · exact hne (k.symm.trans l)
      · exact h.fresh (by rw [← l2, k]; exact he)
      · exact h.fresh (by rw [← k2, l]; exact he')
      · exact hne (k1.trans l1.symm)
    obtain ⟨v, v', hvv, hxx⟩ := hP.meet j hj j' hj' hjj w w' a b a' b' (by rw [← c, ← c', hh])
    have hnm : t.vtx (j, v) ≠ m := by
      intro k
      have k' : t.vtx (j', v') = m := hvv ▸ k
      have i1 := h2 (j, v) hj k
      have i2 := h2 (j', v') hj' k'
      have o1 : e = x.1 := by
        rcases hje with r | r
        · rcases i1 with i | i
          · rw [← r]; exact congrArg Prod.fst i
          · exact absurd (by rw [← r]; exact congrArg Prod.fst i : e = y.1) fun z => h.fresh (z ▸ he)
        · exact r.1
      have o2 : e' = x.1 := by
        rcases hje' with r | r
        · rcases i2 with i | i
          · rw [← r]; exact congrArg Prod.fst i
          · exact absurd (by rw [← r]; exact congrArg Prod.fst i : e' = y.1) fun z => h.fresh (z ▸ he')
        · exact r.1
      exact hne (o1.trans o2.symm)
    obtain ⟨z, hz⟩ := ends he hje v hnm
    obtain ⟨z', hz'⟩ := ends he' hje' v' (hvv ▸ hnm)
    exact ⟨z, z', by rw [hz, hz', hvv], by rw [hz, hx, hxx, c]⟩

/-- `join_segments` and the removal of the point between them, which undo the division of a segment (decomp.py:285-341, 171-175). -/
theorem join_parts (hg : ArgOk g) {mid e0 e1 : Id} {s s1 s' : St K} (h : Tiled g s) (hJ : Joinable s mid e0 e1) (hA : Aligned s mid e0 e1)
    (hB : Proper g s (.joinSegments mid e0 e1)) (hs : joinSegments mid e0 e1 s = .ok s1) (hr : removeFreePoint mid s1 = .ok s') :
    Tiled g s' ∧ s'.qid = s.qid ∧ ∀ x, Off s' x → ∀ r, Exact s x r → Exact s' x r := by
  have hN := h.drawn.nested
  have hL := hN.inv.links
  have hst : step g s (.joinSegments mid e0 e1) = .ok s1 := hs
  have hst1 : step g s1 (.removePoint mid) = .ok s' := hr
  have hN1 := step_nested hst hN ⟨hJ, hA⟩
  have hF1 := step_fan hg.toAngleOk hst hN.inv hJ hB h.drawn.fan
  have hN' := step_nested hst1 hN1 ⟨trivial, trivial⟩
  have hF' := step_fan hg.toAngleOk hst1 hN1.inv trivial trivial hF1
  obtain ⟨x, y, hxe, hye, hxm, hS⟩ := joinSegments_run hs hN.inv hJ
  have hyl : y.1 ∈ s.sid.live := hye ▸ hJ.2.1
  simp only [removeFreePoint, bind_ok] at hr
  obtain ⟨_, _, q, r1, _, r2, fp, r3, pid', r4, r5⟩ := hr
  simp only [Except.ok.injEq] at r5
  subst r5
  have hl := (Ids.remove_ok hN1.inv.pids r4).2.2.2
  have hflx : flip x ≠ x := fun hh => by
    have := congrArg Prod.snd hh
    simp [flip] at this
  have hbt := hB x.2 (!y.2) (by rw [← hxe]; exact hxm) (by rw [← hye, ← hxm, ← hS.mid]; rfl)
  rw [Bool.not_not, ← hxe, ← hye] at hbt
  obtain ⟨τ, t0, t1, hτ⟩ := hbt
  have w1 := (hN.wires.next_wire hS.was hS.nx).2
  have w2 := (hN.wires.next_wire (x := flip y) hyl hS.ny).2
  have hwire := joinSegments_label hN.wires hS hyl
  have hvo : ∀ d : HE, d ≠ x → s1.vtx d = s.vtx d := fun d hd => by rw [hS.vtx, upd, Function.update_of_ne hd]
  have hvx : s1.vtx x = s.vtx y := by rw [hS.vtx, upd, Function.update_self]
  have hH : Halved { s1 with fpts := upd s1.fpts q fp, pid := pid' } s x y := by
    refine ⟨(hS.live _).2 ⟨hS.ne, hS.was⟩, fun hh => ((hS.live _).1 hh).1 rfl, fun j => ?_, ?_, ?_, ?_, ⟨τ, t0, t1, ?_⟩, ?_, ?_, w1, w2.symm⟩
    · show _ ↔ j ∈ s1.sid.live ∨ _
      rw [hS.live]
      constructor
      · intro hj
        by_cases k : j = y.1
        · exact Or.inr k
        · exact Or.inl ⟨k, hj⟩
      · rintro (k | rfl)
        · exact k.2
        · exact hyl
    · show s.xy (s.vtx (flip x)) = s1.xy (s1.vtx (flip x))
      rw [hS.xy, hvo _ hflx]
    · show s.xy (s.vtx x) = s.xy (s.vtx (flip y))
      rw [hS.mid]
    · show s.xy (s.vtx y) = s1.xy (s1.vtx x)
      rw [hS.xy, hvx]
    · show s.xy (s.vtx x) = parametric (s1.xy (s1.vtx (flip x))) (dir (s1.xy (s1.vtx (flip x))) (s1.xy (s1.vtx x))) τ
      rw [hS.xy, hvo _ hflx, hvx, hxm, hτ]
      rfl
    · intro d _ hd
      show s.xy (s.vtx d) = s1.xy (s1.vtx d)
      rw [hS.xy, hvo _ fun hh => hd (congrArg Prod.fst hh)]
    · intro d _
      show s.wire d = s1.wire d
      rw [hwire]
  have hP' : Planar { s1 with fpts := upd s1.fpts q fp, pid := pid' } := by
    refine h.drawn.planar.join hL hH hxm (fun p => ?_) hS.xy (fun d _ hd => hvo d hd) hvx (hS.mid.trans hxm)
      fun d hd hv => ring_two hL hS.was hS.nx hS.ny hd (hv.trans hxm.symm)
    show p ∈ pid'.live ↔ _
    rw [hl, hS.pid]
  have hD' : Drawn g { s1 with fpts := upd s1.fpts q fp, pid := pid' } := ⟨hN', hP', hF'⟩
  refine ⟨⟨hD', hH.good' hg h.drawn hD' hS.wid.symm hS.parent.symm hS.outer.symm hS.wpoly.symm h.good, fun p hp r hr => ?_⟩, hS.qid,
    fun x hx r k => k.frame hS.wid (hH.cnt hx).symm hS.parent hS.outer⟩
  obtain ⟨hpm, hp1⟩ := (hl p).1 hp
  have hp' : p ∈ s.pid.live := hS.pid ▸ hp1
  have hps := (hN'.free.seg p hp).2 (by rw [hr]; simp)
  have hno := hN'.inv.links.no_seg hp (by simp) hps
  have hr' : s1.ppoly p = some r := hr
  rcases joinSegments_freed hJ.2.2.1 hs hr' with k | ⟨v, k⟩ | k
  · have hxp : s1.xy p = s.xy p := by rw [hS.xy]
    have hoff' := free_off hD' hp hps
    have he : Exact s (s1.xy p) r := by rw [hxp]; exact h.reg p hp' r k
    exact he.frame hS.wid (hH.cnt hoff').symm hS.parent hS.outer
  · exfalso
    rcases eq_or_flip (h := ((e1, v) : HE)) (k := y) hye.symm with z | z
    · rw [z] at k
      exact hno x ((hS.live _).2 ⟨hS.ne, hS.was⟩) (hvx.trans k)
    · rw [z] at k
      exact hpm (k.symm.trans (hS.mid.trans hxm))
  · exact absurd k hpm

theorem join_tiled (hg : ArgOk g) {mid e0 e1 : Id} {s s1 s' : St K} (h : Tiled g s) (hJ : Joinable s mid e0 e1) (hA : Aligned s mid e0 e1)
    (hB : Proper g s (.joinSegments mid e0 e1)) (hs : joinSegments mid e0 e1 s = .ok s1) (hr : removeFreePoint mid s1 = .ok s') :
    Tiled g s' :=
  (join_parts hg h hJ hA hB hs hr).1

end
end Verif.Decomp
