import Verif.Decomp.Add

/-! Operations that remove a segment: links, free points and labels after them. -/
namespace Verif.Decomp

variable {K : Type} {T : Prop}

/-- The objects after the segment `e` was removed. -/
structure DelSeg (s s' : St K) (e : Id) : Prop where
  was : e ∈ s.sid.live
  sid : s.sid.remove e = .ok s'.sid
  live : ∀ j, j ∈ s'.sid.live ↔ j ≠ e ∧ j ∈ s.sid.live
  vtx : s'.vtx = s.vtx
  tab : s'.table = upd (upd s.table (s.vtx (e, false), s.vtx (e, true)) none) (s.vtx (e, true), s.vtx (e, false)) none
  xy : s'.xy = s.xy
  pid : s'.pid = s.pid
  vec : s'.vec = s.vec

/-- The links after the segment `e` was taken out from between two corners. -/
structure Unspliced (s s' : St K) (e : Id) (r0 r1 : HE) : Prop where
  n0 : r0.1 ≠ e
  n1 : r1.1 ≠ e
  n01 : r0 ≠ r1
  l0 : r0.1 ∈ s.sid.live
  l1 : r1.1 ∈ s.sid.live
  p0 : s.next r0 = some (e, true)
  p1 : s.next r1 = some (e, false)
  q0 : s'.next r0 = s.next (e, false)
  q1 : s'.next r1 = s.next (e, true)
  other : ∀ d : HE, d.1 ≠ e → d ≠ r0 → d ≠ r1 → s'.next d = s.next d

theorem Links.drop {s : St K} {X : Set HE} {Y : Set Id} (hL : Links s X Y) (h : ∀ d ∈ X, d.1 ∉ s.sid.live) :
    Links s ∅ Y := by
  refine ⟨hL.sids, hL.vlive, hL.vne, fun p hp => ?_⟩
  obtain ⟨l, hr, hP⟩ := hL.ring p hp
  refine ⟨l, ⟨hr.nd, fun d => ?_, hr.path⟩, fun hY => ⟨(hP hY).non, fun d hd => ?_⟩⟩
  · rw [hr.mem]
    constructor
    · rintro ⟨h1, h2, _⟩; exact ⟨h1, h2, by simp⟩
    · rintro ⟨h1, h2, _⟩; exact ⟨h1, h2, fun h3 => h d h3 h1⟩
  · rcases (hP hY).som d hd with h1 | ⟨_, h2, h3, _⟩
    · exact Or.inl h1
    · exact absurd h3 (h d h2)

theorem destroy_eff {e : Id} {s s' : St K} {X : Set HE} (h : destroySegment e s = .ok s') (hL : Links s X ∅)
    (he : e ∈ s.sid.live) (hX : ∀ d ∈ X, d.1 = e) (h0 : EndOk s X ∅ (e, false)) (h1 : EndOk s X ∅ (e, true))
    (hF : Free T s) (hP : T → PolyLive s e) :
    DelSeg s s' e ∧ Links s' ∅ ∅ ∧ Free T s' ∧ ∃ pp fp ps m tb, s' = { s with
      ppoly := pp
      fpts := fp
      pseg := ps
      sid := m
      table := tb } := by
  have hF' := destroySegment_free hF (hL.vlive (e, false) he) (hL.vlive (e, true) he) hP h
  obtain ⟨pp, fp, ps, m, rfl, hm, hL', _, _⟩ := destroySegment_links hL he h0 h1 h
  obtain ⟨h2, h3, h4, h5⟩ := Ids.remove_ok hL.sids hm
  refine ⟨⟨he, hm, h5, rfl, rfl, rfl, rfl, rfl⟩, ?_, hF', _, _, _, _, _, rfl⟩
  refine hL'.drop (fun d hd hl => ?_)
  exact ((h5 d.1).1 hl).1 (hX d hd)

theorem rmSegment_keep {d : HE} {s s' : St K} (h : rmSegment d s = .ok s') (hn : s'.pseg (s.vtx d) ≠ none) :
    s'.ppoly = s.ppoly ∧ s'.fpts = s.fpts := by
  unfold rmSegment at h
  simp only [bind_ok] at h
  obtain ⟨o, _, h2⟩ := h
  cases o with
  | some k =>
    simp only [Except.ok.injEq] at h2
    subst h2
    exact ⟨rfl, rfl⟩
  | none =>
    simp only [bind_ok, check_ok] at h2
    obtain ⟨_, _, q, _, h3⟩ := h2
    obtain ⟨pp, fp, rfl⟩ := setPolygon_eq h3
    simp [upd] at hn

theorem disconnectVtx_keep {d : HE} {s s' : St K} (h : disconnectVtx d s = .ok s') (hn : s'.pseg (s.vtx d) ≠ none) :
    s'.ppoly = s.ppoly ∧ s'.fpts = s.fpts := by
  unfold disconnectVtx at h
  simp only [bind_ok, Except.ok.injEq] at h
  obtain ⟨s1, h1, r, _, rfl⟩ := h
  have := rmSegment_keep h1 hn
  exact this

theorem DelSeg.of_remove {e : Id} {s : St K} {m : Ids} (hs : s.sid.Ok) (hm : s.sid.remove e = .ok m) :
    DelSeg s { s with
      sid := m
      table := upd (upd s.table (s.vtx (e, false), s.vtx (e, true)) none) (s.vtx (e, true), s.vtx (e, false)) none } e := by
  obtain ⟨h2, h3, h4, h5⟩ := Ids.remove_ok hs hm
  exact ⟨h2, hm, h5, rfl, rfl, rfl, rfl, rfl⟩

/-- A segment with both ends disconnected is removed; other segments remain at its ends. -/
theorem destroy_keep {e : Id} {s s' : St K} (h : destroySegment e s = .ok s') (hL : Links s {d | d.1 = e} ∅)
    (he : e ∈ s.sid.live) (h0 : EndOk s {d | d.1 = e} ∅ (e, false)) (h1 : EndOk s {d | d.1 = e} ∅ (e, true))
    (k : ∀ v, s.pseg (s.vtx (e, v)) ≠ none) :
    Links s' ∅ ∅ ∧ DelSeg s s' e ∧ ∃ m tb, s' = { s with
      sid := m
      table := tb } := by
  have hL' : Links s' ∅ ∅ := by
    obtain ⟨pp, fp, ps, m, rfl, hm, hL', _, _⟩ := destroySegment_links hL he h0 h1 h
    obtain ⟨h2, h3, h4, h5⟩ := Ids.remove_ok hL.sids hm
    exact hL'.drop (fun d hd hl => ((h5 d.1).1 hl).1 hd)
  refine ⟨hL', ?_⟩
  clear hL'
  unfold destroySegment at h
  simp only [bind_ok, Except.ok.injEq] at h
  obtain ⟨s1, h2, s2, h3, m, h4, rfl⟩ := h
  obtain ⟨pp, fp, o, rfl, h5, _⟩ := rmSegment_end hL he h0 h2
  have hk := rmSegment_keep h2 (by
    simp only [upd, Function.update_self]
    rw [h5 rfl]
    exact k false)
  obtain ⟨rfl, rfl⟩ : pp = s.ppoly ∧ fp = s.fpts := hk
  have ho : upd s.pseg (s.vtx (e, false)) o = s.pseg := by
    rw [h5 rfl]
    exact Function.update_eq_self _ _
  rw [ho] at h3
  obtain ⟨pp, fp, o2, rfl, h6, _⟩ := rmSegment_end hL he h1 h3
  have hk := rmSegment_keep h3 (by
    simp only [upd, Function.update_self]
    rw [h6 rfl]
    exact k true)
  obtain ⟨rfl, rfl⟩ : pp = s.ppoly ∧ fp = s.fpts := hk
  have ho2 : upd s.pseg (s.vtx (e, true)) o2 = s.pseg := by
    rw [h6 rfl]
    exact Function.update_eq_self _ _
  simp only [ho2]
  exact ⟨DelSeg.of_remove hL.sids h4, _, _, rfl⟩

theorem DelSeg.frame {e : Id} {s t s' t' : St K} (h : DelSeg t t' e) (h1 : s.sid = t.sid) (h2 : s.vtx = t.vtx)
    (h3 : s.table = t.table) (h4 : s.xy = t.xy) (h5 : s.pid = t.pid) (h6 : s.vec = t.vec) (h1' : s'.sid = t'.sid)
    (h2' : s'.vtx = t'.vtx) (h3' : s'.table = t'.table) (h4' : s'.xy = t'.xy) (h5' : s'.pid = t'.pid)
    (h6' : s'.vec = t'.vec) : DelSeg s s' e := by
  obtain ⟨c1, c2, c3, c4, c5, c6, c7, c8⟩ := h
  constructor
  · rw [h1]; exact c1
  · rw [h1, h1']; exact c2
  · rw [h1, h1']; exact c3
  · rw [h2, h2']; exact c4
  · rw [h2, h3, h3']; exact c5
  · rw [h4, h4']; exact c6
  · rw [h5, h5']; exact c7
  · rw [h6, h6']; exact c8

theorem EndOk.frame {s s' : St K} {X : Set HE} {Y : Set Id} {d : HE} (h : EndOk s X Y d) (h1 : s'.next = s.next)
    (h2 : s'.pseg = s.pseg) (h3 : s'.vtx = s.vtx) : EndOk s' X Y d := by
  unfold EndOk at *
  rw [h1, h2, h3]
  exact h

theorem rmWire_eff {e : Id} {s s' : St K} (h : rmWire e s = .ok s') (hL : Links s ∅ ∅) (he : e ∈ s.sid.live)
    (hF : Free T s) (hP : T → PolyLive s e) :
    DelSeg s s' e ∧ Links s' ∅ ∅ ∧ Free T s' ∧ (∀ v, s.next (e, v) = some (e, !v)) ∧ s'.next = s.next ∧
      s'.wire = s.wire ∧ s'.qid = s.qid ∧ s'.outer = s.outer ∧ s'.wpoly = s.wpoly ∧ s'.parent = s.parent ∧
      s'.wseg = s.wseg ∧
      ∃ w q, (∀ v, s.wire (e, v) = some w) ∧ s.wpoly w = some q ∧ s.wid.remove w = .ok s'.wid ∧
        w ∈ s.childs (s.outer q) ∧ s'.childs = upd s.childs (s.outer q) ((s.childs (s.outer q)).erase w) := by
  unfold rmWire at h
  simp only [bind_ok, check_ok, need_ok, removeSet_ok] at h
  obtain ⟨_, h1, _, h2, w, hw, q, hq, l, ⟨hl, rfl⟩, m, hm, h3⟩ := h
  have hn : ∀ v, s.next (e, v) = some (e, !v) := by
    intro v; cases v <;> simp [h1]
  obtain ⟨hD, hL', hF', pp, fp, ps, m', tb, rfl⟩ := destroy_eff h3 (hL.frame rfl rfl rfl rfl rfl) he (X := ∅) (by simp)
    (Or.inr ⟨by simp, hn false, by simp⟩) (Or.inr ⟨by simp, hn true, by simp⟩) (hF.congr rfl rfl rfl rfl rfl) hP
  refine ⟨⟨hD.1, hD.2, hD.3, hD.4, hD.5, hD.6, hD.7, hD.8⟩, hL', hF', hn, rfl, rfl, rfl, rfl, rfl, rfl, rfl, w, q, ?_, hq,
    hm, hl, rfl⟩
  intro v
  cases v
  · rw [← h2]; exact hw
  · exact hw

theorem rmDendrite_eff {e : Id} {tip : Bool} {s s' : St K} (h : wireRmDendrite e tip s = .ok s') (hL : Links s ∅ ∅)
    (he : e ∈ s.sid.live) (hF : Free T s) (hP : T → PolyLive s e) (ht : s.next (e, tip) = some (e, !tip))
    (hr : s.next (e, !tip) ≠ some (e, tip)) :
    DelSeg s s' e ∧ Links s' ∅ ∅ ∧ Free T s' ∧ s.wire (e, true) = s.wire (e, false) ∧
      s'.wire = s.wire ∧ s'.wid = s.wid ∧ s'.qid = s.qid ∧ s'.outer = s.outer ∧ s'.wpoly = s.wpoly ∧
      s'.parent = s.parent ∧ s'.childs = s.childs ∧
      (∃ r : HE, r.1 ≠ e ∧ r.1 ∈ s.sid.live ∧ s.next r = some (e, tip) ∧ s'.next r = s.next (e, !tip) ∧
        ∀ d : HE, d.1 ≠ e → d ≠ r → s'.next d = s.next d) ∧
      ∀ w, (s'.wseg w = s.wseg w ∧ ∀ b, s.wire (e, b) = some w → s'.wseg w ≠ some (e, b)) ∨
        ∃ k, s'.wseg w = some k ∧ s.wire k = some w ∧ k.1 ≠ e ∧ k.1 ∈ s.sid.live := by
  unfold wireRmDendrite at h
  simp only [bind_ok, check_ok, Except.ok.injEq] at h
  obtain ⟨_, h1, q, _, s1, h2, s2, h3, s3, h4, rfl⟩ := h
  obtain ⟨ws, rfl, hws⟩ := disconnectWires_eq h2
  have hF2 := disconnectVtx_free (T := T) (s := { s with wseg := ws }) (hF.congr rfl rfl rfl rfl rfl)
    (hL.vlive (e, !tip) he) hP h3
  obtain ⟨r, pp, fp, o, d1, d2, d3, _, rfl, hL2, d4, d5⟩ :=
    disconnectVtx_links (s := { s with wseg := ws }) (hL.frame rfl rfl rfl rfl rfl) (d := (e, !tip)) he (by simp)
      (by simp) h3
  simp only [flip_mk, Bool.not_not] at d1 d3 d4 hL2 h4 hF2
  have hre : r.1 ≠ e := by
    intro hre
    rcases eq_or_flip (h := r) (k := ((e, tip) : HE)) hre with rfl | rfl
    · rw [ht] at d1
      simp at d1
    · exact hr d1
  have hrt : r ≠ (e, tip) := fun h => hre (by rw [h])
  have hrn : r ≠ (e, !tip) := fun h => hre (by rw [h])
  have htn : ((e, tip) : HE) ≠ (e, !tip) := by simp
  have hvne : s.vtx (e, tip) ≠ s.vtx (e, !tip) := hL.flip_ne (d := (e, !tip)) he |> fun h => by simpa using h
  have hins : (insert ((e, !tip) : HE) ∅ : Set HE) = {(e, !tip)} := by ext; simp
  rw [hins] at hL2
  have hN : upd (upd s.next r (s.next (e, !tip))) (e, !tip) (some (e, tip)) (e, tip) = some (e, !tip) := by
    simp only [upd, Function.update_of_ne htn, Function.update_of_ne hrt.symm, ht]
  have hE1 : ∀ k, upd s.pseg (s.vtx (e, !tip)) o (s.vtx (e, !tip)) = some k → k.1 ≠ e := by
    intro k hk
    simp only [upd, Function.update_self] at hk
    exact d4 k hk
  obtain ⟨hD, hL3, hF3, pp', fp', ps', m, tb, rfl⟩ := destroy_eff (X := {((e, !tip) : HE)}) h4 hL2 he
    (by rintro d rfl; rfl)
    (by
      cases tip
      · exact Or.inr ⟨by simp, hN, by simp⟩
      · exact Or.inl ⟨rfl, hE1⟩)
    (by
      cases tip
      · exact Or.inl ⟨rfl, hE1⟩
      · exact Or.inr ⟨by simp, hN, by simp⟩) hF2 hP
  refine ⟨⟨hD.1, hD.2, hD.3, hD.4, hD.5, hD.6, hD.7, hD.8⟩, hL3.frame rfl rfl rfl rfl rfl,
    hF3.congr rfl rfl rfl rfl rfl, h1, rfl, rfl, rfl, rfl, rfl, rfl, rfl, ?_, ?_⟩
  · refine ⟨r, hre, d2, d1, ?_, ?_⟩
    · simp only [upd, Function.update_of_ne hrn, Function.update_self]
    · intro d hd hdr
      have : d ≠ (e, !tip) := fun h => hd (by rw [h])
      simp only [upd, Function.update_of_ne this, Function.update_of_ne hdr]
  · intro w
    rcases hws w with h5 | ⟨b, k, h5, h6, h7, h8, h9⟩
    · exact Or.inl h5
    · refine Or.inr ⟨k, h6, h7, h8, ?_⟩
      rcases h9 with h9 | ⟨j, h9, h10, h11⟩
      · obtain ⟨k', h12, h13, _⟩ := hL.next_ok (d := (e, b)) he (by simp)
        rw [h9] at h12
        exact Option.some.inj h12 ▸ h13
      · obtain ⟨k', h12, h13, _⟩ := hL.next_ok (d := j) (h10 ▸ he) (by simp)
        rw [h11] at h12
        exact Option.some.inj h12 ▸ h13

/-- Both ends of a segment are disconnected. -/
theorem unlink_eff {e : Id} {s s1 s2 : St K} (h1 : disconnectVtx (e, false) s = .ok s1)
    (h2 : disconnectVtx (e, true) s1 = .ok s2) (hL : Links s ∅ ∅) (he : e ∈ s.sid.live) (hF : Free T s)
    (hP : T → PolyLive s e) (n0 : s.next (e, false) ≠ some (e, true)) (n1 : s.next (e, true) ≠ some (e, false)) :
    ∃ r0 r1 ps N, s2 = { s with
        pseg := ps
        next := N } ∧ Unspliced s s2 e r0 r1 ∧ Links s2 {d | d.1 = e} ∅ ∧ Free T s2 ∧
      EndOk s2 {d | d.1 = e} ∅ (e, false) ∧ EndOk s2 {d | d.1 = e} ∅ (e, true) ∧
      (∀ v, ps (s.vtx (e, v)) ≠ none) ∧ ∀ p, (∀ v, s.vtx (e, v) ≠ p) → ps p = s.pseg p := by
  have hF1 := disconnectVtx_free hF (hL.vlive (e, false) he) hP h1
  obtain ⟨r0, pp, fp, o0, d1, d2, d3, _, rfl, hL1, d4, d5⟩ := disconnectVtx_links hL (d := (e, false)) he (by simp)
    (by simp) h1
  have hF2 := disconnectVtx_free hF1 (hL.vlive (e, true) he) hP h2
  obtain ⟨r1, pp', fp', o1, c1, c2, c3, c6, rfl, hL2, c4, c5⟩ := disconnectVtx_links hL1 (d := (e, true)) he (by simp)
    (by simp) h2
  simp only [flip_mk, Bool.not_false, Bool.not_true] at d1 c1
  simp only at d3 d4 c2 c3 c4
  have hvne := hL.vne e he
  have e0 : ((e, false) : HE) ≠ (e, true) := by simp
  have hr0 : r0.1 ≠ e := by
    intro hre
    rcases eq_or_flip (h := r0) (k := ((e, false) : HE)) hre with rfl | rfl
    · exact n0 d1
    · exact hvne d3.symm
  have a1 : r0 ≠ (e, false) := fun h => hr0 (by rw [h])
  have a2 : r0 ≠ (e, true) := fun h => hr0 (by rw [h])
  have hr1 : r1.1 ≠ e := by
    intro hre
    rcases eq_or_flip (h := r1) (k := ((e, false) : HE)) hre with rfl | rfl
    · exact c6 (by simp)
    · simp only [upd, flip_mk, Bool.not_false, Function.update_of_ne e0.symm, Function.update_of_ne a2.symm] at c1
      exact n1 c1
  have a3 : r1 ≠ (e, false) := fun h => hr1 (by rw [h])
  have a4 : r1 ≠ (e, true) := fun h => hr1 (by rw [h])
  have hrr : r0 ≠ r1 := by
    rintro rfl
    exact hvne (d3.symm.trans c3)
  have c1' : s.next r1 = some (e, false) := by
    simpa only [upd, Function.update_of_ne a3, Function.update_of_ne hrr.symm] using c1
  have ho0 : o0 ≠ none := fun h => n0 (d5.1 h)
  have ho1 : o1 ≠ none := by
    intro h
    have := c5.1 h
    simp only [upd, flip_mk, Bool.not_true, Function.update_of_ne e0.symm, Function.update_of_ne a2.symm] at this
    exact n1 this
  obtain ⟨rfl, rfl⟩ : pp = s.ppoly ∧ fp = s.fpts := disconnectVtx_keep h1 (by
    simp only [upd, Function.update_self]
    exact ho0)
  obtain ⟨rfl, rfl⟩ : pp' = s.ppoly ∧ fp' = s.fpts := disconnectVtx_keep h2 (by
    simp only [upd, Function.update_self]
    exact ho1)
  refine ⟨r0, r1, _, _, rfl, ?_, ?_, hF2, ?_, ?_, ?_, ?_⟩
  · constructor
    · exact hr0
    · exact hr1
    · exact hrr
    · exact d2
    · exact c2
    · exact d1
    · exact c1'
    · simp only [upd, Function.update_of_ne a2, Function.update_of_ne hrr, Function.update_of_ne a1,
        Function.update_self]
    · simp only [upd, Function.update_of_ne a4, Function.update_self, Function.update_of_ne e0.symm,
        Function.update_of_ne a2.symm]
    · intro d hd h3 h4
      have h5 : d ≠ (e, true) := fun h => hd (by rw [h])
      have h6 : d ≠ (e, false) := fun h => hd (by rw [h])
      simp only [upd, Function.update_of_ne h5, Function.update_of_ne h6, Function.update_of_ne h3,
        Function.update_of_ne h4]
  · have : (insert ((e, true) : HE) (insert (e, false) ∅) : Set HE) = {d | d.1 = e} := by
      ext ⟨d, v⟩
      simp only [Set.mem_insert_iff, Set.mem_empty_iff_false, or_false, Set.mem_setOf_eq, Prod.mk.injEq]
      cases v <;> simp
    rw [← this]
    exact hL2
  · refine Or.inl ⟨rfl, fun k hk => ?_⟩
    simp only [upd, Function.update_of_ne hvne, Function.update_self] at hk
    exact d4 k hk
  · refine Or.inl ⟨rfl, fun k hk => ?_⟩
    simp only [upd, Function.update_self] at hk
    exact c4 k hk
  · intro v
    cases v
    · simp only [upd, Function.update_of_ne hvne, Function.update_self]
      exact ho0
    · simp only [upd, Function.update_self]
      exact ho1
  · intro p hp
    simp only [upd, Function.update_of_ne (hp true).symm, Function.update_of_ne (hp false).symm]

/-- A stored segment of a wire stays a side of it. -/
def WsegKept (s s' : St K) (e : Id) (wire : HE → Option Id) (old : Id → Option HE) : Prop :=
  ∀ w, (s'.wseg w = old w ∧ ∀ b, wire (e, b) = some w → s'.wseg w ≠ some (e, b)) ∨
    ∃ k, s'.wseg w = some k ∧ wire k = some w ∧ k.1 ≠ e ∧ k.1 ∈ s.sid.live

/-- Stored segments of wires after `disconnectWires`. -/
theorem disconnectWires_eff {e : Id} {s s' : St K} (h : disconnectWires e s = .ok s') (hL : Links s ∅ ∅)
    (he : e ∈ s.sid.live) : ∃ ws, s' = { s with wseg := ws } ∧ WsegKept s s' e s.wire s.wseg := by
  obtain ⟨ws, rfl, hws⟩ := disconnectWires_eq h
  refine ⟨ws, rfl, fun w => ?_⟩
  rcases hws w with h5 | ⟨b, k, h5, h6, h7, h8, h9⟩
  · exact Or.inl h5
  · refine Or.inr ⟨k, h6, h7, h8, ?_⟩
    rcases h9 with h9 | ⟨j, h9, h10, h11⟩
    · obtain ⟨k', h12, h13, _⟩ := hL.next_ok (d := (e, b)) he (by simp)
      rw [h9] at h12
      exact Option.some.inj h12 ▸ h13
    · obtain ⟨k', h12, h13, _⟩ := hL.next_ok (d := j) (h10 ▸ he) (by simp)
      rw [h11] at h12
      exact Option.some.inj h12 ▸ h13

section
variable [Field K] [LinearOrder K]

omit [Field K] [LinearOrder K] in
theorem newWireObj_parent (s : St K) (c : Id) :
    (newWireObj s).2.parent c = if c = (newWireObj s).1 then some c else s.parent c := by
  by_cases h : c = s.wid.append.1
  · subst h
    simp [newWireObj, upd]
  · simp [newWireObj, upd, h]

theorem nestHole_eq {g : Geom K} {aw bw : Id} {s s' : St K} (h : nestHole g aw bw s = .ok s') :
    ∃ P C, ∃ l : List Id, s' = { s with parent := P, childs := C } ∧
      (∀ c, (c ∈ l → P c = some aw ∨ P c = some bw) ∧ (c ∉ l → P c = if c = bw then s.parent aw else s.parent c)) ∧
      (∀ c ∈ l, Tree s → aw ∈ s.wid.live → aw ≠ 0 → bw ∈ s.wid.live → bw ≠ 0 → c ∈ s.wid.live ∧ c ≠ 0 ∧
        (s.parent c = some aw ∨ (c = bw ∧ s.parent aw = some aw))) ∧
      (Tree s → aw ∈ s.wid.live → aw ≠ 0 → bw ∈ s.wid.live → bw ≠ 0 → Tree s') := by
  unfold nestHole at h
  simp only [bind_ok] at h
  obtain ⟨s1, h1, s2, h2, h3⟩ := h
  have hT2 : Tree s → aw ∈ s.wid.live → aw ≠ 0 → bw ∈ s.wid.live → bw ≠ 0 → Tree s2 := by
    intro hT ha ha0 hb hb0
    obtain ⟨x, hx⟩ := Option.ne_none_iff_exists'.1 (hT.non aw ha ha0)
    rw [hx] at h1 h2
    have hT1 := setParent_tree hT ha ha0 h1
    obtain ⟨C1, rfl⟩ := setParent_eq h1
    exact setParent_tree hT1 hb hb0 h2
  obtain ⟨C1, rfl⟩ := setParent_eq h1
  obtain ⟨C2, rfl⟩ := setParent_eq h2
  obtain ⟨P, C, h4, h5⟩ := spread_eq h3
  have key : ∀ c, upd (upd s.parent aw (s.parent aw)) bw (s.parent aw) c =
      if c = bw then s.parent aw else s.parent c := by
    intro c
    simp only [upd, Function.update_eq_self, Function.update_apply]
  refine ⟨P, C, C2 aw, h4, fun c => ⟨(h5 c).1, fun hc => ((h5 c).2 hc).trans (key c)⟩, ?_, ?_⟩
  · intro c hc hT ha ha0 hb hb0
    obtain ⟨h6, h7, h8⟩ := (hT2 hT ha ha0 hb hb0).mem aw ha c hc
    refine ⟨h6, h7, ?_⟩
    rw [show (_ = some aw) = (_ = some aw) from congrArg (· = some aw) (key c)] at h8
    split at h8
    · next hcb => exact Or.inr ⟨hcb, h8⟩
    · exact Or.inl h8
  · intro hT ha ha0 hb hb0
    have hT' := hT2 hT ha ha0 hb hb0
    exact spread_tree hT' (fun c hc => ⟨(hT'.mem aw ha c hc).1, (hT'.mem aw ha c hc).2.1⟩) h3

theorem nestOuter_eq {g : Geom K} {q aw bw : Id} {s s' : St K} (h : nestOuter g q aw bw s = .ok s') :
    ∃ P C ow, (ow = aw ∨ ow = bw) ∧ s' = { s with parent := P, childs := C, outer := upd s.outer q ow } := by
  unfold nestOuter at h
  simp only [bind_ok] at h
  obtain ⟨inA, _, s1, h1, s2, h2, s3, h3, l, hl, h4⟩ := h
  obtain ⟨C1, rfl⟩ := setParent_eq h1
  obtain ⟨C2, rfl⟩ := setParent_eq h2
  obtain ⟨C3, rfl⟩ := setParents_eq h3
  obtain ⟨C4, rfl⟩ := bubble_eq h4
  refine ⟨_, _, _, ?_, rfl⟩
  cases inA <;> simp

theorem nest_eq {g : Geom K} {q aw bw : Id} {s s' : St K} (h : nest g q aw bw s = .ok s') :
    ∃ P C O, s' = { s with parent := P, childs := C, outer := O } ∧
      ((s.outer q = aw ∧ ∃ ow, (ow = aw ∨ ow = bw) ∧ O = upd s.outer q ow) ∨ (s.outer q ≠ aw ∧ O = s.outer)) := by
  unfold nest at h
  split at h
  · next h1 =>
    obtain ⟨P, C, ow, h2, rfl⟩ := nestOuter_eq h
    exact ⟨P, C, _, rfl, Or.inl ⟨h1, ow, h2, rfl⟩⟩
  · next h1 =>
    obtain ⟨P, C, l, rfl, _⟩ := nestHole_eq h
    exact ⟨P, C, _, rfl, Or.inr ⟨h1, rfl⟩⟩

/-- What `_split_wire` does; the parents of the wires are not told. -/
structure SplitWire (s s' : St K) (e aw bw q : Id) (l : List HE) (bn r0 r1 : HE) : Prop where
  del : DelSeg s s' e
  links : Links s' ∅ ∅
  uns : Unspliced s s' e r0 r1
  hw : ∀ v, s.wire (e, v) = some aw
  hq : s.wpoly aw = some q
  hbw : bw = s.wid.append.1
  hbn : s.next (e, true) = some bn
  nd : l.Nodup
  walk : (s.parent aw = none ∧ aw ≠ bw ∧ l = []) ∨
    ((s.parent aw ≠ none ∨ aw = bw) ∧ Path s.next bn l (e, false) ∧ l ≠ [] ∧ (e, false) ∉ l.tail)
  old : ∀ d ∈ l, s.wire d = some aw
  wir : ∀ d, s'.wire d = if d ∈ l then some bw else s.wire d
  wid : s'.wid = s.wid.append.2
  qid : s'.qid = s.qid
  wpoly : s'.wpoly = upd s.wpoly bw (some q)
  outer : (s.outer q = aw ∧ ∃ ow, (ow = aw ∨ ow = bw) ∧ s'.outer = upd s.outer q ow) ∨
    (s.outer q ≠ aw ∧ s'.outer = s.outer)
  wseg : WsegKept s s' e s'.wire (upd (upd s.wseg aw (s.next (e, false))) bw (some bn))
  par : s.parent aw ≠ none → ∀ w, s.parent w ≠ none ∨ w = bw → s'.parent w ≠ none

/-- `_split_wire` with the nesting of the parts as a parameter. -/
def splitWith (f : Id → Id → Id → St K → Except Err (St K)) (e : Id) (s : St K) : Except Err (St K) := do
  check (isDendrite s e)
  let aw ← need (s.wire (e, true))
  let q ← need (s.wpoly aw)
  let bw := (newWireObj s).1
  let s := (newWireObj s).2
  let bn ← need (s.next (e, true))
  let l ← wireSegments s aw bn (e, false)
  let s ← relabel aw bw l s
  let s : St K := { s with wseg := upd (upd s.wseg aw (s.next (e, false))) bw (some bn) }
  let s ← disconnectWires e s
  let s ← disconnectVtx (e, false) s
  let s ← disconnectVtx (e, true) s
  let s : St K := { s with wpoly := upd s.wpoly bw (some q) }
  let s ← f q aw bw s
  let s : St K := { s with change := .shape (some q) }
  destroySegment e s

theorem splitWire_with (g : Geom K) (e : Id) (s : St K) : splitWire g e s = splitWith (nest g) e s := by
  unfold splitWire splitWith
  rfl

set_option linter.unusedSectionVars false in
theorem splitWith_eff {f : Id → Id → Id → St K → Except Err (St K)}
    (hf : ∀ q aw bw (t t' : St K), f q aw bw t = .ok t' → (∃ P C O, t' = { t with parent := P, childs := C, outer := O } ∧
      ((t.outer q = aw ∧ ∃ ow, (ow = aw ∨ ow = bw) ∧ O = upd t.outer q ow) ∨ (t.outer q ≠ aw ∧ O = t.outer))) ∧
      (t.parent aw ≠ none → ∀ w, t.parent w ≠ none → t'.parent w ≠ none))
    {e : Id} {s s' : St K} (h : splitWith f e s = .ok s') (hL : Links s ∅ ∅)
    (he : e ∈ s.sid.live) (hF : Free T s) (hP : T → PolyLive s e)
    (n0 : s.next (e, false) ≠ some (e, true))
    (n1 : s.next (e, true) ≠ some (e, false)) :
    Free T s' ∧ ∃ aw bw q l bn r0 r1, SplitWire s s' e aw bw q l bn r0 r1 := by
  unfold splitWith at h
  simp only [bind_ok, check_ok, need_ok] at h
  obtain ⟨_, h0, aw, haw, q, hq, bn, hbn, l, hl, s1, h1, s2, h2, s3, h3, s4, h4, s5, h5, h6⟩ := h
  obtain ⟨hln, hl'⟩ := wireSegments_sound hl
  obtain ⟨rfl, hold⟩ := relabel_eq hln h1
  have hdw : ∀ v, s.wire (e, v) = some aw := by
    intro v
    cases v
    · rw [← h0]; exact haw
    · exact haw
  have hL1 : Links (newWireObj s).2 ∅ ∅ := hL.frame rfl rfl rfl rfl rfl
  obtain ⟨ws, rfl, hws⟩ := disconnectWires_eff h2 (hL1.frame rfl rfl rfl rfl rfl) he
  have hP1 : ∀ (Q : Id → Option Id) (w q' : Id), T → Q w = some q' → (w = aw ∨ w = (newWireObj s).1) →
      (∀ c, Q c = if c = (newWireObj s).1 then Q (newWireObj s).1 else s.wpoly c) →
      (Q (newWireObj s).1 = none ∨ Q (newWireObj s).1 = some q) → q' ∈ s.qid.live := by
    intro Q w q' hT h8 h9 hQ hQ'
    have hqq := hP hT aw q haw hq
    rw [hQ] at h8
    split at h8
    · rcases hQ' with hQ' | hQ'
      · rw [hQ'] at h8; cases h8
      · rw [hQ'] at h8; cases h8; exact hqq
    · next h10 =>
      rw [h9.resolve_right h10, hq] at h8
      cases h8; exact hqq
  have hWt : ∀ w, (if (e, true) ∈ l then some (newWireObj s).1 else s.wire (e, true)) = some w →
      w = aw ∨ w = (newWireObj s).1 := by
    intro w hw
    split at hw
    · exact Or.inr (Option.some.inj hw).symm
    · rw [haw] at hw; exact Or.inl (Option.some.inj hw).symm
  obtain ⟨r0, r1, ps, N, rfl, hU, hL2, hF2, hE0, hE1, hps, hps'⟩ := unlink_eff (T := T) h3 h4
    (hL1.frame rfl rfl rfl rfl rfl) he (hF.congr rfl rfl rfl rfl rfl) (by
      intro hT w q' h7 h8
      refine hP1 _ w q' hT h8 (hWt w h7) ?_ ?_
      · intro c
        simp only [newWireObj, upd, Function.update_apply]
        split_ifs <;> rfl
      · left
        simp only [newWireObj, upd, Function.update_self]) n0 n1
  obtain ⟨⟨P, C, O, rfl, hO⟩, hpl⟩ := hf _ _ _ _ _ h5
  replace hpl : (newWireObj s).2.parent aw ≠ none → ∀ w, (newWireObj s).2.parent w ≠ none → P w ≠ none := hpl
  replace hO : (s.outer q = aw ∧ ∃ ow, (ow = aw ∨ ow = (newWireObj s).1) ∧ O = upd s.outer q ow) ∨ (s.outer q ≠ aw ∧ O = s.outer) := hO
  obtain ⟨hL3, hD, m, tb, rfl⟩ := destroy_keep h6 (hL2.frame rfl rfl rfl rfl rfl) he (hE0.frame rfl rfl rfl)
    (hE1.frame rfl rfl rfl) hps
  refine ⟨hF2.congr rfl rfl rfl rfl rfl, aw, (newWireObj s).1, q, l, bn, r0, r1, ?_⟩
  constructor
  · exact hD.frame rfl rfl rfl rfl rfl rfl rfl rfl rfl rfl rfl rfl
  · exact hL3
  · exact ⟨hU.1, hU.2, hU.3, hU.4, hU.5, hU.6, hU.7, hU.8, hU.9, hU.10⟩
  · exact hdw
  · exact hq
  · rfl
  · exact hbn
  · exact hln
  · have hpar := newWireObj_parent s aw
    rcases hl' with ⟨h7, h8⟩ | ⟨h7, h8⟩
    · rw [hpar] at h7
      split at h7
      · cases h7
      · next h => exact Or.inl ⟨h7, h, h8⟩
    · refine Or.inr ⟨?_, h8⟩
      rw [hpar] at h7
      split at h7
      · next h => exact Or.inr h
      · exact Or.inl h7
  · exact hold
  · exact fun d => rfl
  · rfl
  · rfl
  · simp only [newWireObj, upd, Function.update_idem]
  · exact hO
  · intro w
    have := hws w
    simp only [newWireObj, upd] at this ⊢
    rcases this with h7 | h7
    · left
      refine ⟨h7.1.trans ?_, h7.2⟩
      simp only [Function.update_apply]
      split_ifs <;> rfl
    · exact Or.inr h7
  · have hpar := newWireObj_parent s
    have hne : ∀ w, s.parent w ≠ none ∨ w = (newWireObj s).1 → (newWireObj s).2.parent w ≠ none := by
      intro w hw
      rw [hpar]
      split
      · simp
      · next hh => exact hw.resolve_right hh
    exact fun hp w hw => hpl (hne aw (Or.inl hp)) w (hne w hw)

theorem splitWire_eff {g : Geom K} {e : Id} {s s' : St K} (h : splitWire g e s = .ok s') (hL : Links s ∅ ∅)
    (he : e ∈ s.sid.live) (hF : Free T s) (hP : T → PolyLive s e)
    (n0 : s.next (e, false) ≠ some (e, true))
    (n1 : s.next (e, true) ≠ some (e, false)) :
    Free T s' ∧ ∃ aw bw q l bn r0 r1, SplitWire s s' e aw bw q l bn r0 r1 :=
  splitWith_eff (f := nest g) (fun _ _ _ _ _ h => ⟨nest_eq h, nest_le h⟩) ((splitWire_with g e s).symm.trans h) hL he hF hP n0 n1

end

/-- What `_join_poly` does; the parents of the wires are not told. -/
structure JoinPoly (s s' : St K) (e lw rw lq rq q q' keep rm : Id) (l : List HE) (r0 r1 : HE) : Prop where
  del : DelSeg s s' e
  links : Links s' ∅ ∅
  uns : Unspliced s s' e r0 r1
  hlw : s.wire (e, true) = some lw
  hrw : s.wire (e, false) = some rw
  hlq : s.wpoly lw = some lq
  hrq : s.wpoly rw = some rq
  kind : (s.parent lw = s.parent rw ∧ lw = s.outer lq ∧ rw = s.outer rq ∧ q = rq ∧ q' = lq ∧ keep = rw) ∨
    (s.parent lw = some rw ∧ q = rq ∧ q' = lq ∧ keep = rw) ∨ (s.parent rw = some lw ∧ q = lq ∧ q' = rq ∧ keep = lw)
  hrm : rm = s.outer q'
  nd : l.Nodup
  walk : ∃ d, s.wseg rm = some d ∧ Path s.next d l d ∧ l ≠ [] ∧ d ∉ l.tail
  old : ∀ d ∈ l, s.wire d = some rm
  wir : ∀ d, s'.wire d = if d ∈ l then some keep else s.wire d
  wid : s.wid.remove rm = .ok s'.wid
  qid : s.qid.remove q' = .ok s'.qid
  outer : s'.outer = s.outer
  wpoly : ∀ c, s'.wpoly c = if c ∈ s.childs rm then some q else s.wpoly c
  wseg : WsegKept s s' e s'.wire s.wseg
  par : ParLe s s'
  parent : ∀ c, c ≠ rm → s'.parent c = if c ∈ s.childs rm then some (s.outer q) else s.parent c
  change : (s.parent lw = s.parent rw ∧ s'.change = .join q q') ∨ (s.parent lw ≠ s.parent rw ∧ s'.change = .remove q q')

variable [Field K]

omit [Field K] in
theorem movePoints_eff {q : Id} {l : List Id} {s s' : St K} (h : movePoints q l s = .ok s') (hF : Free T s)
    (hl : ∀ p ∈ l, s.pseg p = none ∧ p ∈ s.pid.live) (hq : T → q ∈ s.qid.live) :
    ∃ fp, s' = { s with
      ppoly := fun p => if p ∈ l then some q else s.ppoly p
      fpts := fp } ∧ Free T s' := movePoints_eq hF hl hq h

theorem joinKind_ok {s : St K} {lw rw lq rq : Id} {r : Id × Id × Id × Change} (h : joinKind s lw rw lq rq = .ok r) :
    (s.parent lw = s.parent rw ∧ lw = s.outer lq ∧ rw = s.outer rq ∧ r.1 = rq ∧ r.2.1 = lq ∧ r.2.2.1 = rw) ∨
    (s.parent lw = some rw ∧ r.1 = rq ∧ r.2.1 = lq ∧ r.2.2.1 = rw) ∨
    (s.parent rw = some lw ∧ r.1 = lq ∧ r.2.1 = rq ∧ r.2.2.1 = lw) := by
  unfold joinKind at h
  split at h
  · next h1 =>
    simp only [bind_ok, check_ok, Except.ok.injEq] at h
    obtain ⟨_, h2, _, h3, rfl⟩ := h
    exact Or.inl ⟨h1, h2, h3, rfl, rfl, rfl⟩
  · split at h
    · next h2 =>
      simp only [Except.ok.injEq] at h
      subst h
      exact Or.inr (Or.inl ⟨h2, rfl, rfl, rfl⟩)
    · simp only [bind_ok, check_ok, Except.ok.injEq] at h
      obtain ⟨_, h2, rfl⟩ := h
      exact Or.inr (Or.inr ⟨h2, rfl, rfl, rfl⟩)

theorem joinKind_change {s : St K} {lw rw lq rq : Id} {r : Id × Id × Id × Change} (h : joinKind s lw rw lq rq = .ok r) :
    (s.parent lw = s.parent rw ∧ r.2.2.2 = .join r.1 r.2.1) ∨ (s.parent lw ≠ s.parent rw ∧ r.2.2.2 = .remove r.1 r.2.1) := by
  unfold joinKind at h
  split at h
  · next h1 =>
    simp only [bind_ok, check_ok, Except.ok.injEq] at h
    obtain ⟨_, h2, _, h3, rfl⟩ := h
    exact Or.inl ⟨h1, rfl⟩
  · next h1 =>
    split at h
    · simp only [Except.ok.injEq] at h
      subst h
      exact Or.inr ⟨h1, rfl⟩
    · simp only [bind_ok, check_ok, Except.ok.injEq] at h
      obtain ⟨_, h2, rfl⟩ := h
      exact Or.inr ⟨h1, rfl⟩

theorem joinPoly_eff {e : Id} {s s' : St K} (h : joinPoly e s = .ok s') (hL : Links s ∅ ∅)
    (he : e ∈ s.sid.live) (hF : Free T s)
    (hP : T → ∀ v w q, s.wire (e, v) = some w → s.wpoly w = some q → q ∈ s.qid.live) (hQ : T → s.qid.Ok)
    (hne : T → ∀ w w' q q', s.wire (e, true) = some w → s.wire (e, false) = some w' → s.wpoly w = some q →
      s.wpoly w' = some q' → q ≠ q')
    (n0 : s.next (e, false) ≠ some (e, true)) (n1 : s.next (e, true) ≠ some (e, false)) :
    Free T s' ∧ ∃ lw rw lq rq q q' keep rm l r0 r1, JoinPoly s s' e lw rw lq rq q q' keep rm l r0 r1 := by
  unfold joinPoly at h
  simp only [bind_ok, need_ok, Except.ok.injEq] at h
  obtain ⟨lw, hlw, rw, hrw, lq, hlq, rq, hrq, ⟨q, q', keep, ch⟩, hk, s1, h1, s2, h2, s3, h3, l, hl, s4, h4, s5, h5,
    s6, h6, s7, h7, s8, h8, m, hm, n, hn, rfl⟩ := h
  have hch := joinKind_change hk
  have hk := joinKind_ok hk
  simp only at hk hch h1 h2 h3 h4 hl hm hn
  obtain ⟨C1, rfl⟩ := joinChilds_eq h1
  clear h1
  dsimp only at h2 h3 h4 hl
  have hql : T → q ∈ s.qid.live := by
    intro hT
    rcases hk with ⟨_, _, _, rfl, _⟩ | ⟨_, rfl, _⟩ | ⟨_, rfl, _⟩
    · exact hP hT false rw q hrw hrq
    · exact hP hT false rw q hrw hrq
    · exact hP hT true lw q hlw hlq
  have hqq : T → q ≠ q' := by
    intro hT
    have := hne hT lw rw lq rq hlw hrw hlq hrq
    rcases hk with ⟨_, _, _, rfl, rfl, _⟩ | ⟨_, rfl, rfl, _⟩ | ⟨_, rfl, rfl, _⟩
    · exact this.symm
    · exact this.symm
    · exact this
  obtain ⟨fp, rfl, hF2⟩ := movePoints_eff (T := T) h2 (hF.congr rfl rfl rfl rfl rfl) (fun p hp => hF.pseg hp) hql
  clear h2
  dsimp only at hF2 h3 h4 hl
  obtain ⟨C2, rfl⟩ := setParent_eq h3
  clear h3
  dsimp only at hl h4
  obtain ⟨hln, hl'⟩ := wireAll_sound hl
  obtain ⟨rfl, hold⟩ := relabel_eq hln h4
  clear h4
  dsimp only at hold hl' h5
  obtain ⟨ws, rfl, hws⟩ := disconnectWires_eff h5 (hL.frame rfl rfl rfl rfl rfl) he
  clear h5
  dsimp only at hws h6
  have hkeep : keep = lw ∨ keep = rw := by
    rcases hk with ⟨_, _, _, _, _, rfl⟩ | ⟨_, _, _, rfl⟩ | ⟨_, _, _, rfl⟩
    · exact Or.inr rfl
    · exact Or.inr rfl
    · exact Or.inl rfl
  have hWt : ∀ w, (if (e, true) ∈ l then some keep else s.wire (e, true)) = some w → w = lw ∨ w = rw := by
    intro w hw
    split at hw
    · cases hw
      exact hkeep
    · rw [hlw] at hw
      cases hw
      exact Or.inl rfl
  obtain ⟨r0, r1, ps, N, rfl, hU, hL2, hF6, hE0, hE1, hps, hps'⟩ := unlink_eff (T := T) h6 h7
    (hL.frame rfl rfl rfl rfl rfl) he (hF2.congr rfl rfl rfl rfl rfl) (by
      intro hT w x h9 h10
      have h11 := hWt w h9
      have h12 : (if w ∈ s.childs (s.outer q') then some q else s.wpoly w) = some x := h10
      split at h12
      · cases h12
        exact hql hT
      · rcases h11 with rfl | rfl
        · exact hP hT true _ x hlw h12
        · exact hP hT false _ x hrw h12) n0 n1
  clear h6 h7
  dsimp only at hU hL2 hF6 hE0 hE1 hps hps' h8
  obtain ⟨hL3, hD, m', tb, rfl⟩ := destroy_keep h8 (hL2.frame rfl rfl rfl rfl rfl) he (hE0.frame rfl rfl rfl)
    (hE1.frame rfl rfl rfl) hps
  clear h8
  dsimp only at hL3 hD hm hn
  refine ⟨?_, lw, rw, lq, rq, q, q', keep, s.outer q', l, r0, r1, ?_⟩
  · refine ⟨hF6.nd, hF6.mem, hF6.seg, ?_⟩
    intro hT p hp x hx
    obtain ⟨h9, h10⟩ := hF6.full hT p hp x hx
    refine ⟨((Ids.remove_ok (hQ hT) hn).2.2.2 x).2 ⟨?_, h9⟩, h10⟩
    have hx' : (if p ∈ s.fpts q' then some q else s.ppoly p) = some x := hx
    split at hx'
    · cases hx'
      exact hqq hT
    · next h11 =>
      rintro rfl
      exact h11 (hF.full hT p hp x hx').2
  · constructor
    · exact hD.frame rfl rfl rfl rfl rfl rfl rfl rfl rfl rfl rfl rfl
    · exact hL3.frame rfl rfl rfl rfl rfl
    · exact ⟨hU.1, hU.2, hU.3, hU.4, hU.5, hU.6, hU.7, hU.8, hU.9, hU.10⟩
    · exact hlw
    · exact hrw
    · exact hlq
    · exact hrq
    · exact hk
    · rfl
    · exact hln
    · rcases hl' with ⟨h9, _⟩ | ⟨d, _, h9⟩
      · simp [upd] at h9
      · exact ⟨d, h9⟩
    · exact hold
    · exact fun d => rfl
    · exact hm
    · exact hn
    · rfl
    · exact fun c => rfl
    · exact hws
    · intro w hw
      simp only [upd, Function.update_apply]
      split
      · simp
      · split
        · simp
        · exact hw
    · intro c hc
      simp only [upd, Function.update_of_ne hc]
    · exact hch

end Verif.Decomp
