import Verif.Decomp.FanRun
import Verif.Plane.BridgeDel

/-! Removed segments and free points in a drawing with the right polygons. -/

namespace Verif.Decomp
open Verif.Plane

section
variable {K : Type} [Field K] [LinearOrder K] [IsStrictOrderedRing K] {g : Geom K}

/-- Ends of removed segments become free points of the polygon they are in. -/
theorem reg_freed {e : Id} {s s' : St K} (h : Tiled g s) (h' : Drawn g s') (hD : DelSeg s s' e) (hF : Freed s s' e)
    (hd : s.wire (e, true) = s.wire (e, false)) (hE : ∀ x q, q ∈ s.qid.live → Exact s x q → Exact s' x q) : Reg s' := by
  intro p hp q hq
  have hp' : p ∈ s.pid.live := hD.pid ▸ hp
  rw [hD.xy]
  rcases hF p q hq with k | ⟨⟨v, rfl⟩, w, hw, hwq⟩
  · exact hE _ q (h.drawn.nested.free.full trivial p hp' q k).1 (h.reg p hp' q k)
  · have hel := hD.was
    have hwv : s.wire (e, v) = some w := by cases v <;> simp [← hd, hw]
    obtain ⟨x, hx⟩ := sees_ex h.drawn.links h.drawn.planar (d := (e, v)) hel
    have he := hE x q (h.drawn.nested.polyLive (d := (e, v)) hel hwv hwq) (h.good w (e, v) x q hx hwv hwq)
    have h0 : s'.pseg (s.vtx (e, v)) = none := (h'.nested.free.seg _ hp).2 (by rw [hq]; simp)
    obtain ⟨z, z1, z2⟩ := clear_end hD.plus h.drawn.links h.drawn.planar (d := (e, v)) rfl (fun m hm hh =>
      h'.links.no_seg hp (by simp) h0 m hm (by rw [hD.vtx]; exact hh)) hx
    exact he.congr ((cnt_path h'.links h'.nested.wires z1).trans (cnt_path h'.links h'.nested.wires z2))

/-- `delete_segment` in a drawing keeps the polygons right. For a segment with the same wire on its sides and other segments at
both ends, the parts of this wire have to be placed by the segments; `deleteSegment_placed` has it for the holes. -/
theorem deleteSegment_tiled (hg : ArgOk g) {e : Id} {s s' : St K} (hs : deleteSegment g e s = .ok s') (h : Tiled g s)
    (he : e ∈ s.sid.live)
    (hbr : s.wire (e, true) = s.wire (e, false) → (∀ v, s.next (e, v) ≠ some (e, !v)) → Placed s') : Tiled g s' := by
  have hN := h.drawn.nested
  have hN' := deleteSegment_nested hs hN he hbr
  have hfan := deleteSegment_fan hs hN.inv he h.drawn.fan
  have h0 := h.quiet
  have hN0 := hN.quiet
  have he0 : e ∈ (quiet s).sid.live := he
  have key : DelSeg (quiet s) s' e → Drawn g s' := fun hD => ⟨hN', h.drawn.planar.less (fun p hp => hD.pid ▸ hp)
    (fun j hj => ((hD.live j).1 hj).2) hD.vtx hD.xy, hfan⟩
  cases deleteSegment_cases hs with
  | wire hn hs =>
    obtain ⟨hD, _, _, _, _, _, _, _, _, _, _, w, _, h6, _⟩ :=
      rmWire_eff hs hN0.inv.links he hN0.free (fun _ w q hw hq => hN0.polyLive (d := (e, true)) he hw hq)
    have hd := key hD
    obtain ⟨k1, k2⟩ := rmWire_good hg hs h0.drawn h0.good hd he
    exact ⟨hd, k1, reg_freed h0 hd hD (rmWire_freed hs) ((h6 true).trans (h6 false).symm) fun x q hq => (k2 x q hq).2⟩
  | dendrite tip ht hr hs =>
    obtain ⟨hD, _, _, hw, _⟩ :=
      rmDendrite_eff hs hN0.inv.links he hN0.free (fun _ w q hw hq => hN0.polyLive (d := (e, true)) he hw hq) ht hr
    have hd := key hD
    obtain ⟨k1, k2⟩ := rmDendrite_good hg hs h0.drawn h0.good hd he ht hr
    exact ⟨hd, k1, reg_freed h0 hd hD (rmDendrite_freed hs) hw fun x q _ => (k2 x q).2⟩
  | split hn hd hs =>
    obtain ⟨_, _, _, aw, bw, q, l, bn, r0, r1, hS, hK⟩ := splitWire_kind hs hN0 he hn hN'.wires (hbr hd hn)
    have hdr := key hS.del
    obtain ⟨k1, k2⟩ := hS.good hg h0.drawn h0.good hdr hK
    refine ⟨hdr, k1, fun p hp r hr => ?_⟩
    have hps : s'.pseg p = none := (hN'.free.seg p hp).2 (by rw [hr]; simp)
    have hp' : p ∈ (quiet s).pid.live := hS.del.pid ▸ hp
    have hoff := free_off hdr hp hps
    rcases splitWire_moved hs hr with k | ⟨v, rfl⟩
    · rw [hS.del.xy] at hoff ⊢
      exact k2 _ r (hN0.free.full trivial p hp' r k).1 hoff (h0.reg p hp' r k)
    · exfalso
      obtain ⟨k, m1, m2, m3, _⟩ := hN0.inv.links.next_ok (d := (e, v)) he (by simp)
      have hke : k.1 ≠ e := by
        intro hh
        rcases eq_or_flip (h := k) (k := (e, v)) hh with rfl | rfl
        · exact hN0.inv.links.flip_ne (d := (e, v)) he m3
        · exact hn v m1
      exact hN'.inv.links.no_seg hp (by simp) hps (flip k) ((hS.del.live _).2 ⟨hke, m2⟩) (by rw [hS.del.vtx]; exact m3)
  | join hn hd hs =>
    obtain ⟨_, lw, rw, lq, rq, q, q', keep, rm, l, r0, r1, hJ⟩ := joinPoly_start hs hN0 he hn hd
    have hne : lw ≠ rw := fun hh => hd (hJ.hlw.trans (hh ▸ hJ.hrw.symm))
    have hdr := key hJ.del
    obtain ⟨k1, k2⟩ := hJ.good hg hne h0.drawn h0.good hdr
    refine ⟨hdr, k1, fun p hp r hr => ?_⟩
    have hp' : p ∈ (quiet s).pid.live := hJ.del.pid ▸ hp
    rw [hJ.del.xy]
    have old : ∀ r, (quiet s).ppoly p = some r → Exact s' ((quiet s).xy p) (if r = q' then q else r) := fun r hr =>
      k2 _ r (hN0.free.full trivial p hp' r hr).1 (h0.reg p hp' r hr)
    have hrl := (hN'.free.full trivial p hp r hr).1
    rcases joinPoly_moved hJ hs hN0.free hN0.inv.qids (hN0.polyLive (d := (e, true)) he hJ.hlw hJ.hlq)
      (hN0.polyLive (d := (e, false)) he hJ.hrw hJ.hrq) hr with k | ⟨v, rfl⟩ | ⟨k, rfl⟩
    · have := old r k
      rwa [if_neg] at this
      rintro rfl
      exact ((Ids.remove_ok hN0.inv.qids hJ.qid).2.2.2 r |>.1 hrl).1 rfl
    · exfalso
      obtain ⟨k, m1, m2, m3, _⟩ := hN0.inv.links.next_ok (d := (e, v)) he (by simp)
      have hke : k.1 ≠ e := by
        intro hh
        rcases eq_or_flip (h := k) (k := (e, v)) hh with rfl | rfl
        · exact hN0.inv.links.flip_ne (d := (e, v)) he m3
        · exact hn v m1
      have hps : s'.pseg ((quiet s).vtx (e, v)) = none := (hN'.free.seg _ hp).2 (by rw [hr]; simp)
      exact hN'.inv.links.no_seg hp (by simp) hps (flip k) ((hJ.del.live _).2 ⟨hke, m2⟩) (by rw [hJ.del.vtx]; exact m3)
    · have := old q' k
      rwa [if_pos rfl] at this

omit [IsStrictOrderedRing K] in
/-- The numbers of crossings depend only on the segments. -/
theorem cnt_pic {s t : St K} (h1 : t.sid = s.sid) (h2 : t.wire = s.wire)
    (h3 : ∀ d : HE, d.1 ∈ s.sid.live → t.xy (t.vtx d) = s.xy (s.vtx d)) (x : K × K) : cnt t x = cnt s x := by
  funext w
  have hd : darts t = darts s := by unfold darts; rw [h1]
  unfold cnt
  rw [hd]
  refine Finset.sum_congr rfl fun d hdd => ?_
  have hl := mem_darts.1 hdd
  have : hit t x d.1 = hit s x d.1 := by
    unfold hit
    rw [h3 (d.1, false) hl, h3 (d.1, true) hl]
  rw [h2, this]

/-- The polygons beside the sides depend only on the segments. -/
theorem good_pic {s t : St K} (h1 : t.sid = s.sid) (h2 : t.wire = s.wire)
    (h3 : ∀ d : HE, d.1 ∈ s.sid.live → t.xy (t.vtx d) = s.xy (s.vtx d)) (h4 : t.wid = s.wid) (h5 : t.parent = s.parent)
    (h6 : t.outer = s.outer) (h7 : t.wpoly = s.wpoly) (h : Good s) : Good t := by
  intro w d x q hx hw hq
  have hS : Sub s t := ⟨fun e he => by rw [h1]; exact he, h3⟩
  exact (h w d x q (hS.sees (h1 ▸ hx.live) hx) (h2 ▸ hw) (h7 ▸ hq)).frame h4 (cnt_pic h1 h2 h3 x) h5 h6

/-- A free point off the segments in the polygon that contains it. -/
theorem addPoint_tiled (hg : ArgOk g) {xy : K × K} {q : Id} {s : St K} (h : Tiled g s) (hq : q ∈ s.qid.live)
    (h1 : ∀ p ∈ s.pid.live, s.xy p ≠ xy) (h2 : Off s xy) (h3 : polyContains s q xy = .ok true) :
    Tiled g (addFreePoint xy q s).2 := by
  have hN := h.drawn.nested
  have hs : step g s (.addPoint xy q) = .ok (addFreePoint xy q s).2 := rfl
  have hN' := step_nested hs hN ⟨trivial, hq⟩
  obtain ⟨k1, k2, k3⟩ := Ids.append_ok hN.inv.pids
  have hx : ∀ p ∈ s.pid.live, (addFreePoint xy q s).2.xy p = s.xy p := fun p hp => by
    have : p ≠ s.pid.append.1 := fun hh => k1 (hh ▸ hp)
    simp [addFreePoint, upd, this]
  have hxn : (addFreePoint xy q s).2.xy s.pid.append.1 = xy := by simp [addFreePoint, upd]
  have hpl : ∀ p, p ∈ (addFreePoint xy q s).2.pid.live ↔ p = s.pid.append.1 ∨ p ∈ s.pid.live := fun p => by
    show p ∈ s.pid.append.2.live ↔ _
    rw [k2]
    simp [or_comm]
  have hpos : ∀ d : HE, d.1 ∈ s.sid.live → (addFreePoint xy q s).2.xy (s.vtx d) = s.xy (s.vtx d) := fun d hd =>
    hx _ (h.drawn.links.vlive d hd)
  have hpl' : Planar (addFreePoint xy q s).2 :=
    h.drawn.planar.point h.drawn.links (p := s.pid.append.1) hpl hx rfl rfl (fun p hp => by rw [hxn]; exact h1 p hp)
      fun e he u u0 u1 hh => h2 e he ⟨u, u0, u1, by rw [← hxn]; exact hh⟩
  refine ⟨⟨hN', hpl', step_fan hg.toAngleOk hs hN.inv trivial trivial h.drawn.fan⟩,
    good_pic (s := s) rfl rfl hpos rfl rfl rfl rfl h.good, fun p hp r hr => ?_⟩
  refine Exact.frame (s := s) ?_ rfl (cnt_pic (s := s) (t := (addFreePoint xy q s).2) rfl rfl hpos _) rfl rfl
  rcases (hpl p).1 hp with rfl | hp'
  · have hr' : q = r := by simpa [addFreePoint, upd] using hr
    rw [hxn, ← hr']
    obtain ⟨q0, hq0, he⟩ := exact_ex h.drawn h.good h2
    have := polyContains_exact h.drawn.nested hq0 he hq
    rw [h3] at this
    have hqq : q = q0 := by simpa using this
    exact hqq ▸ he
  · rw [hx p hp']
    have hne : p ≠ s.pid.append.1 := fun hh => k1 (hh ▸ hp')
    exact h.reg p hp' r (by simpa [addFreePoint, upd, hne] using hr)

/-- Without a free point. -/
theorem removePoint_tiled (hg : ArgOk g) {p : Id} {s s' : St K} (hs : removeFreePoint p s = .ok s') (h : Tiled g s) : Tiled g s' := by
  have hst : step g s (.removePoint p) = .ok s' := hs
  have hN' := step_nested hst h.drawn.nested ⟨trivial, trivial⟩
  have hF := step_fan hg.toAngleOk hst h.drawn.nested.inv trivial trivial h.drawn.fan
  simp only [removeFreePoint, bind_ok] at hs
  obtain ⟨_, _, q, h1, _, h2, fp, h3, pid', h4, h5⟩ := hs
  simp only [Except.ok.injEq] at h5
  subst h5
  have hl := (Ids.remove_ok h.drawn.nested.inv.pids h4).2.2.2
  refine ⟨⟨hN', h.drawn.planar.less (fun p hp => ((hl p).1 hp).2) (fun e he => he) rfl rfl, hF⟩,
    good_pic (s := s) rfl rfl (fun d _ => rfl) rfl rfl rfl rfl h.good, fun p hp r hr => ?_⟩
  exact (h.reg p ((hl p).1 hp).2 r hr).frame rfl (cnt_pic (s := s) rfl rfl (fun d _ => rfl) _) rfl rfl

end
end Verif.Decomp
