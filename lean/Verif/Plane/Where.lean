import Verif.Plane.Good

/-! How the operations change the polygons in which the free points are registered. -/

namespace Verif.Decomp
open Verif.Plane

section
variable {K : Type}

/-- Points are only taken out of the sets of free points. -/
def PpLe (s s' : St K) : Prop := ∀ p r, s'.ppoly p = some r → s.ppoly p = some r

theorem PpLe.refl (s : St K) : PpLe s s := fun _ _ h => h

theorem PpLe.trans {s t u : St K} (h : PpLe s t) (h' : PpLe t u) : PpLe s u := fun p r k => h p r (h' p r k)

theorem PpLe.of {s s' : St K} (h : s'.ppoly = s.ppoly) : PpLe s s' := fun p r k => by rw [← h]; exact k

theorem joinSegment_le {d : HE} {s s' : St K} (h : joinSegment d s = .ok s') : PpLe s s' := by
  unfold joinSegment at h
  cases hp : s.pseg (s.vtx d) with
  | some x =>
    simp only [hp, Except.ok.injEq] at h
    subst h
    exact PpLe.refl s
  | none =>
    simp only [hp, bind_ok] at h
    obtain ⟨s1, h1, h2⟩ := h
    simp only [Except.ok.injEq] at h2
    subst h2
    obtain ⟨fp, rfl⟩ := leavePoly_eq h1
    intro p r k
    by_cases hh : p = s.vtx d
    · subst hh; simp [upd] at k
    · simpa [upd, hh] using k

theorem makeSegment_le [Field K] {a b e : Id} {s s' : St K} (h : makeSegment a b s = .ok (e, s')) : PpLe s s' := by
  unfold makeSegment at h
  simp only [bind_ok, Except.ok.injEq, Prod.mk.injEq] at h
  obtain ⟨_, _, s1, h1, s2, h2, _, rfl⟩ := h
  exact ((PpLe.of rfl).trans (joinSegment_le h1)).trans ((joinSegment_le h2).trans (PpLe.of rfl))

theorem setNext_same {d k : HE} {s s' : St K} (h : setNext d k s = .ok s') : s'.ppoly = s.ppoly := by
  unfold setNext at h
  simp only [bind_ok, Except.ok.injEq] at h
  obtain ⟨_, _, rfl⟩ := h
  rfl

theorem connectVtx_le {d : HE} {i : Ins} {s s' : St K} (h : connectVtx d i s = .ok s') : PpLe s s' := by
  unfold connectVtx at h
  simp only [bind_ok, Except.ok.injEq] at h
  obtain ⟨s1, h1, s2, h2, s3, h3, rfl⟩ := h
  exact (joinSegment_le h1).trans ((PpLe.of (setNext_same h2)).trans ((PpLe.of (setNext_same h3)).trans (PpLe.of rfl)))

theorem connectFree_le {d : HE} {w : Option Id} {s s' : St K} (h : connectFree d w s = .ok s') : PpLe s s' := by
  unfold connectFree at h
  simp only [bind_ok, Except.ok.injEq] at h
  obtain ⟨s1, h1, s2, h2, rfl⟩ := h
  exact (joinSegment_le h1).trans ((PpLe.of (setNext_same h2)).trans (PpLe.of rfl))

theorem newWire_le [Field K] {q a b e : Id} {s s' : St K} (h : newWire q a b s = .ok (e, s')) : PpLe s s' := by
  unfold newWire at h
  simp only [bind_ok, Except.ok.injEq, Prod.mk.injEq, Prod.exists] at h
  obtain ⟨s1, h1, e', s2, h2, s3, h3, s4, h4, _, rfl⟩ := h
  obtain ⟨C, rfl⟩ := setParent_eq h1
  exact (PpLe.of rfl).trans ((makeSegment_le h2).trans ((connectFree_le h3).trans ((connectFree_le h4).trans (PpLe.of rfl))))

theorem addDendrite_le [Field K] {a b e : Id} {i : Ins} {root : Bool} {s s' : St K} (h : wireAddDendrite a b i root s = .ok (e, s')) :
    PpLe s s' := by
  unfold wireAddDendrite at h
  simp only [bind_ok, Except.ok.injEq, Prod.mk.injEq, Prod.exists] at h
  obtain ⟨e', s2, h2, s3, h3, s4, h4, _, rfl⟩ := h
  exact (makeSegment_le h2).trans ((connectVtx_le h3).trans ((connectFree_le h4).trans (PpLe.of rfl)))

theorem relabel_pp {old new : Id} {l : List HE} : ∀ {s s' : St K}, relabel old new l s = .ok s' → s'.ppoly = s.ppoly := by
  induction l with
  | nil =>
    intro s s' h
    simp only [relabel, Except.ok.injEq] at h
    subst h; rfl
  | cons x l ih =>
    intro s s' h
    simp only [relabel, bind_ok] at h
    obtain ⟨_, _, h2⟩ := h
    exact (ih h2).trans rfl

theorem joinWires_le [Field K] {a b e : Id} {ia ib : Ins} {s s' : St K} (h : joinWires a b ia ib s = .ok (e, s')) : PpLe s s' := by
  unfold joinWires at h
  simp only [bind_ok, Except.ok.injEq, Prod.mk.injEq, Prod.exists] at h
  obtain ⟨_, _, aw, _, bw, _, _, _, q, _, e', s1, h1, s2, h2, s3, h3, keep, _, rm, _, l, _, s4, h4, s5, h5, rp, _, c, _, m, _, _, rfl⟩ := h
  obtain ⟨C, rfl⟩ := setParents_eq h5
  exact (PpLe.of rfl).trans ((makeSegment_le h1).trans ((connectVtx_le h2).trans ((connectVtx_le h3).trans
    (((PpLe.of rfl).trans (PpLe.of (relabel_pp h4))).trans (PpLe.of rfl)))))

/-- Points are only freed at the ends of a segment `e`; they get the polygon of the wire of `e`. -/
def Freed (s s' : St K) (e : Id) : Prop := ∀ p r, s'.ppoly p = some r → s.ppoly p = some r ∨
  ((∃ v, s.vtx (e, v) = p) ∧ ∃ w, s.wire (e, true) = some w ∧ s.wpoly w = some r)

theorem rmSegment_freed {d : HE} {s s' : St K} (h : rmSegment d s = .ok s') : Freed s s' d.1 := by
  unfold rmSegment at h
  simp only [bind_ok] at h
  obtain ⟨o, h1, h2⟩ := h
  cases ho : o with
  | some x =>
    simp only [ho, Except.ok.injEq] at h2
    subst h2
    exact fun p r k => Or.inl k
  | none =>
    simp only [ho, bind_ok] at h2
    obtain ⟨_, _, q, hq, h3⟩ := h2
    unfold setPolygon at h3
    simp only [bind_ok, Except.ok.injEq] at h3
    obtain ⟨s1, h4, rfl⟩ := h3
    obtain ⟨fp, rfl⟩ := leavePoly_eq h4
    unfold polyAt at hq
    simp only [bind_ok, need_ok] at hq
    obtain ⟨w, hw, hq⟩ := hq
    intro p r k
    by_cases hh : p = s.vtx d
    · subst hh
      simp only [upd, Function.update_self, Option.some.injEq] at k
      subst k
      exact Or.inr ⟨⟨d.2, rfl⟩, w, hw, hq⟩
    · exact Or.inl (by simpa [upd, hh] using k)

theorem Freed.le {s s' t : St K} {e : Id} (h : Freed s s' e) (h1 : PpLe s' t) : Freed s t e := fun p r k => h p r (h1 p r k)

/-- The ends of a segment are freed one after the other. -/
theorem Freed.trans {s t u : St K} {e : Id} (h : Freed s t e) (h' : Freed t u e) (h1 : t.vtx = s.vtx)
    (h2 : t.wire = s.wire) (h3 : t.wpoly = s.wpoly) : Freed s u e := by
  intro p r k
  rcases h' p r k with h4 | ⟨⟨v, h4⟩, w, h6, h7⟩
  · exact h p r h4
  · refine Or.inr ⟨⟨v, ?_⟩, w, ?_, ?_⟩
    · rw [← h1]; exact h4
    · rw [← h2]; exact h6
    · rw [← h3]; exact h7

theorem disconnectVtx_freed {d : HE} {s s' : St K} (h : disconnectVtx d s = .ok s') :
    Freed s s' d.1 ∧ s'.vtx = s.vtx ∧ s'.wire = s.wire ∧ s'.wpoly = s.wpoly ∧ s'.qid = s.qid := by
  unfold disconnectVtx at h
  simp only [bind_ok, Except.ok.injEq] at h
  obtain ⟨s1, h1, r, _, rfl⟩ := h
  have := (rmSegment_freed h1).le (t := { s1 with next := upd (upd s1.next r (s1.next d)) d (some (flip d)) }) (PpLe.of rfl)
  obtain ⟨_, _, _, rfl, _⟩ := rmSegment_eq h1
  exact ⟨this, rfl, rfl, rfl, rfl⟩

theorem destroySegment_freed {e : Id} {s s' : St K} (h : destroySegment e s = .ok s') : Freed s s' e := by
  unfold destroySegment at h
  simp only [bind_ok, Except.ok.injEq] at h
  obtain ⟨s1, h2, s2, h3, m, h4, rfl⟩ := h
  have k1 := rmSegment_freed h2
  have k2 := rmSegment_freed h3
  obtain ⟨_, _, _, rfl, _⟩ := rmSegment_eq h2
  exact (k1.trans k2 rfl rfl rfl).le (PpLe.of rfl)

theorem destroySegment_qid {e : Id} {s s' : St K} (h : destroySegment e s = .ok s') : s'.qid = s.qid := by
  unfold destroySegment at h
  simp only [bind_ok, Except.ok.injEq] at h
  obtain ⟨s1, h2, s2, h3, m, h4, rfl⟩ := h
  obtain ⟨_, _, _, rfl, _⟩ := rmSegment_eq h2
  obtain ⟨_, _, _, rfl, _⟩ := rmSegment_eq h3
  rfl

theorem rmWire_freed {e : Id} {s s' : St K} (h : rmWire e s = .ok s') : Freed s s' e := by
  unfold rmWire at h
  simp only [bind_ok] at h
  obtain ⟨_, _, _, _, w, _, q, _, l, _, m, _, h⟩ := h
  intro p r k
  exact destroySegment_freed h p r k

theorem rmDendrite_freed {e : Id} {tip : Bool} {s s' : St K} (h : wireRmDendrite e tip s = .ok s') : Freed s s' e := by
  unfold wireRmDendrite at h
  simp only [bind_ok, Except.ok.injEq] at h
  obtain ⟨_, _, q, _, s1, h1, s2, h2, s3, h3, rfl⟩ := h
  obtain ⟨ws, rfl, _⟩ := disconnectWires_eq h1
  obtain ⟨k, k1, k2, k3, k4⟩ := disconnectVtx_freed h2
  have := k.trans (destroySegment_freed h3) k1 k2 k3
  intro p r k
  exact this p r k

/-- Two polygons are joined: the points of the removed one get the other; no end of the segment is freed. -/
theorem joinPoly_moved [Field K] {e lw rw lq rq q q' keep rm : Id} {l : List HE} {r0 r1 : HE} {s s' : St K}
    (hJ : JoinPoly s s' e lw rw lq rq q q' keep rm l r0 r1) (h : joinPoly e s = .ok s') (hF : Free True s) (hQ : s.qid.Ok)
    (hl1 : lq ∈ s.qid.live) (hl2 : rq ∈ s.qid.live) {p r : Id} (hr : s'.ppoly p = some r) :
    s.ppoly p = some r ∨ (∃ v, s.vtx (e, v) = p) ∨ (s.ppoly p = some q' ∧ r = q) := by
  unfold joinPoly at h
  simp only [bind_ok, need_ok, Except.ok.injEq] at h
  obtain ⟨lw', hlw, rw', hrw, lq', hlq, rq', hrq, ⟨qq, qq', keep', ch⟩, hk, s1, h1, s2, h2, s3, h3, l', hl, s4, h4, s5, h5,
    s6, h6, s7, h7, s8, h8, m, hm, n, hn, rfl⟩ := h
  have hk := joinKind_ok hk
  simp only at hk h1 h2 h3 h4 hl hm hn
  obtain ⟨C1, rfl⟩ := joinChilds_eq h1
  have e1 : lw' = lw := Option.some.inj (hlw.symm.trans hJ.hlw)
  have e2 : rw' = rw := Option.some.inj (hrw.symm.trans hJ.hrw)
  subst e1; subst e2
  have e3 : lq' = lq := Option.some.inj (hlq.symm.trans hJ.hlq)
  have e4 : rq' = rq := Option.some.inj (hrq.symm.trans hJ.hrq)
  subst e3; subst e4
  have hq : qq ∈ s.qid.live := by
    rcases hk with ⟨_, _, _, a, _⟩ | ⟨_, a, _⟩ | ⟨_, a, _⟩ <;> rw [a] <;> assumption
  obtain ⟨fp, rfl, hF2⟩ := movePoints_eff (T := True) h2 (hF.congr rfl rfl rfl rfl rfl) (fun p hp => hF.pseg hp) (fun _ => hq)
  obtain ⟨C2, rfl⟩ := setParent_eq h3
  obtain ⟨hln, hl'⟩ := wireAll_sound hl
  obtain ⟨rfl, hold⟩ := relabel_eq hln h4
  obtain ⟨ws, rfl, hws⟩ := disconnectWires_eq h5
  obtain ⟨k, k1, k2, k3, k4⟩ := disconnectVtx_freed h6
  obtain ⟨m, m1, m2, m3, m4⟩ := disconnectVtx_freed h7
  have := (k.trans m k1 k2 k3).trans (destroySegment_freed h8) (m1.trans k1) (m2.trans k2) (m3.trans k3)
  have hsame : s8.qid = s.qid := by
    rw [destroySegment_qid h8, m4, k4]
  have hqq : qq' = q' := by
    have h9 := hJ.qid
    simp only at h9
    rw [hsame] at hn
    have k1 := (Ids.remove_ok hQ hn).2.2.2 qq'
    have k2 := (Ids.remove_ok hQ h9).2.2.2 qq'
    have k3 := (Ids.remove_ok hQ hn).1
    by_contra hne
    exact absurd rfl (k1.1 (k2.2 ⟨hne, k3⟩)).1
  have hq2 : qq = q := by
    rcases hk with ⟨_, _, _, a, b, _⟩ | ⟨_, a, b, _⟩ | ⟨_, a, b, _⟩ <;>
      rcases hJ.kind with ⟨_, _, _, c, d, _⟩ | ⟨_, c, d, _⟩ | ⟨_, c, d, _⟩ <;> rw [a, c] <;>
      exact (b.symm.trans (hqq.trans d)).symm
  subst hqq; subst hq2
  rcases this p r hr with h9 | ⟨⟨v, h9⟩, _⟩
  · have h9 : (if p ∈ s.fpts qq' then some qq else s.ppoly p) = some r := h9
    split at h9
    · next h10 => exact Or.inr (Or.inr ⟨(hF.mem _ _ h10).2, (Option.some.inj h9).symm⟩)
    · exact Or.inl h9
  · exact Or.inr (Or.inl ⟨v, h9⟩)

/-- The first part of `_split_poly`, with the free points. -/
theorem splitPoly_start2 [Field K] [LinearOrder K] {T : Prop} {g : Geom K} {a b e : Id} {ia ib : Ins} {s s' : St K}
    (h : splitPoly g a b ia ib s = .ok (e, s')) (hL : Links s ∅ ∅) (ha : a ∈ s.pid.live) (hb : b ∈ s.pid.live)
    (hF : Free T s) (hQ : T → s.qid.Ok) (hCa : Corner s a ia) (hCb : Corner s b ib) :
    ∃ ow lw q q' l s1 s2 s3, SplitPoly s s1 e a b ia ib ow lw q q' l ∧ Free T s1 ∧ PpLe s s1 ∧
      cut g q q' ow lw s1 = .ok s2 ∧
      splitPoints q' (s2.fpts q) s2 = .ok s3 ∧ splitHoles g q' (s3.childs (s3.outer q)) s3 = .ok s' := by
  unfold splitPoly at h
  simp only [bind_ok, check_ok, need_ok, Except.ok.injEq] at h
  obtain ⟨_, h0, ow, how, ⟨e', s1⟩, h1, s2, h2, s3, h3, st, hst, l, hl, s4, h4, q, hq, s5, h5, s6, h6, s7, h7, h8⟩ := h
  simp only [Prod.mk.injEq] at h8
  obtain ⟨rfl, rfl⟩ := h8
  have hpp : PpLe s s3 := (PpLe.of rfl).trans ((makeSegment_le h1).trans ((connectVtx_le h2).trans (connectVtx_le h3)))
  obtain ⟨hA, hL3, hF3, hS, pp, fp, ps, V, N, W, vc, rfl, hW, hW0, hW1⟩ :=
    splice_eff h1 h2 (wb := some (newWireObj s).1) h3 (hL.frame rfl rfl rfl rfl rfl) ha hb
      (hF.congr rfl rfl rfl rfl rfl) ⟨hCa.1, hCa.2, hCa.3, hCa.4⟩ ⟨hCb.1, hCb.2, hCb.3, hCb.4⟩
  obtain ⟨hln, hl⟩ := wireSegments_sound hl
  obtain ⟨rfl, hw⟩ := relabel_eq hln h4
  simp only [newWireObj] at hl hw hst hW hW0 hW1 hq h5
  have hne : ow ≠ s.wid.append.1 := by
    rintro rfl
    simp [upd] at hq
  have hst' : st = ib.2.1 := by
    have := hS.e1
    simp only at this
    rw [hst] at this
    exact Option.some.inj this
  subst hst'
  simp only [upd, Function.update_of_ne hne] at hl hq
  rw [how] at hW0
  have hel : (e', true) ∉ l := by
    intro h
    have := hw _ h
    rw [hW1] at this
    exact hne (Option.some.inj this).symm
  refine ⟨ow, s.wid.append.1, q, s.qid.append.1, l, _, s5, s6, ?_, ?_, fun p r k => hpp p r (by exact k), h5, h6, h7⟩
  · constructor
    · exact how
    · rw [← h0]; exact how
    · rfl
    · rfl
    · exact hne
    · exact hq
    · refine AddSeg.frame (hA.base (s := s) rfl rfl rfl rfl rfl rfl) ?_ ?_ ?_ ?_ ?_ ?_ <;> rfl
    · exact hL3.frame rfl rfl rfl rfl rfl
    · exact ⟨hS.1, hS.2, hS.3, hS.4, hS.5, hS.6, hS.7, hS.8⟩
    · exact hln
    · exact hl
    · intro d hd hde
      exact (hW d hde).symm.trans (hw d hd)
    · exact hel
    · intro d hd
      simp only [hW d hd]
    · simp only [hW0]
    · simp only [hW1, ite_self]
    · rfl
    · rfl
    · rfl
    · exact Function.update_idem _ _ _
    · rfl
    · rfl
    · simp only [newWireObj, upd]
      rw [Function.update_idem]
  · refine ⟨fun x => ?_, fun x p hp => ?_, hF3.seg, fun hT p hp x hx => ?_⟩
    · by_cases hx : x = s.qid.append.1
      · subst hx; simp [upd]
      · simpa [upd, hx] using hF3.nd x
    · by_cases hx : x = s.qid.append.1
      · subst hx; simp [upd] at hp
      · exact hF3.mem x p (by simpa [upd, hx] using hp)
    · obtain ⟨h9, h10⟩ := hF3.full hT p hp x hx
      obtain ⟨h11, h12, _⟩ := Ids.append_ok (hQ hT)
      have hxq : x ≠ s.qid.append.1 := fun h => h11 (h ▸ h9)
      refine ⟨?_, by simpa [upd, hxq] using h10⟩
      show x ∈ s.qid.append.2.live
      rw [h12]
      exact List.mem_append_left _ h9

end
end Verif.Decomp
