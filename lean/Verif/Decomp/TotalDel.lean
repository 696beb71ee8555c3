import Verif.Decomp.TotalAdd

/-! The operations that remove a segment return if the state is nested. -/

namespace Verif.Decomp

variable {K : Type}

/-- `disconnect_wires` returns if the next side has the wire of a side and the segment is not a wire of its own. -/
theorem disconnectWires_total {e : Id} {s : St K} (hL : Links s ∅ ∅) (he : e ∈ s.sid.live) (hw : ∀ v, ∃ w, s.wire (e, v) = some w)
    (hn : ∀ d k : HE, d.1 ∈ s.sid.live → s.next d = some k → s.wire k = s.wire d)
    (ht : ¬ (s.next (e, true) = some (e, false) ∧ s.next (e, false) = some (e, true))) :
    ∃ s', disconnectWires e s = .ok s' := by
  have key : ∀ (v : Bool) (t : St K), t.wire = s.wire → t.next = s.next → ∃ s', disconnectWire (e, v) t = .ok s' := by
    intro v t t1 t2
    obtain ⟨w, hw⟩ := hw v
    unfold disconnectWire
    refine ex_bind (need_ok.2 (by rw [t1]; exact hw)) ?_
    split
    · obtain ⟨k, h1, h2, h3, _⟩ := hL.next_ok (d := (e, v)) he (by simp)
      refine ex_bind (need_ok.2 (by rw [t2]; exact h1)) ?_
      by_cases hk : k.1 = e
      · have hkf : k = (e, !v) := by
          rcases eq_or_flip (h := k) (k := ((e, v) : HE)) hk with rfl | rfl
          · exact absurd h3 (hL.flip_ne (d := (e, v)) he)
          · rfl
        subst hkf
        obtain ⟨k2, j1, j2, j3, _⟩ := hL.next_ok (d := (e, !v)) he (by simp)
        refine ex_bind (a := k2) ?_ (ex_bind (a := ()) (check_ok.2 ?_) (ex_bind (a := ()) (check_ok.2 ?_) ⟨_, rfl⟩))
        · rw [if_pos rfl, t2]
          exact need_ok.2 j1
        · rw [t1, hn (e, !v) k2 he j1, hn (e, v) (e, !v) he h1]
          exact hw
        · intro hh
          rcases eq_or_flip (h := k2) (k := ((e, !v) : HE)) hh with rfl | rfl
          · exact absurd j3 (hL.flip_ne (d := (e, !v)) he)
          · rw [flip_mk, Bool.not_not] at j1
            cases v
            · exact ht ⟨j1, h1⟩
            · exact ht ⟨h1, j1⟩
      · refine ex_bind (a := k) ?_ (ex_bind (a := ()) (check_ok.2 ?_) (ex_bind (a := ()) (check_ok.2 hk) ⟨_, rfl⟩))
        · rw [if_neg hk]
        · rw [t1, hn (e, v) k he h1]
          exact hw
    · exact ⟨_, rfl⟩
  obtain ⟨s1, h1⟩ := key true s rfl rfl
  obtain ⟨s2, h2⟩ := key false s1 (by
    unfold disconnectWire at h1
    obtain ⟨w, _, h1⟩ := bind_ok.1 h1
    split at h1
    · obtain ⟨_, _, h1⟩ := bind_ok.1 h1
      obtain ⟨_, _, h1⟩ := bind_ok.1 h1
      obtain ⟨_, _, h1⟩ := bind_ok.1 h1
      obtain ⟨_, _, h1⟩ := bind_ok.1 h1
      cases h1
      rfl
    · cases h1
      rfl) (by
    unfold disconnectWire at h1
    obtain ⟨w, _, h1⟩ := bind_ok.1 h1
    split at h1
    · obtain ⟨_, _, h1⟩ := bind_ok.1 h1
      obtain ⟨_, _, h1⟩ := bind_ok.1 h1
      obtain ⟨_, _, h1⟩ := bind_ok.1 h1
      obtain ⟨_, _, h1⟩ := bind_ok.1 h1
      cases h1
      rfl
    · cases h1
      rfl)
  exact ⟨s2, bind_ok.2 ⟨_, h1, h2⟩⟩

theorem joinChilds_total {q q' : Id} {l : List Id} : ∀ {s : St K}, UpTree s → l.Nodup → (∀ c ∈ l, c ∈ s.wid.live ∧ c ≠ 0) →
    (∀ c ∈ l, s.wpoly c = some q') → s.outer q ∈ s.wid.live → ∃ s', joinChilds q q' l s = .ok s' := by
  induction l with
  | nil => intro s _ _ _ _ _; exact ⟨s, rfl⟩
  | cons c l ih =>
    intro s h hn hl hw ho
    obtain ⟨n1, n2⟩ := List.nodup_cons.1 hn
    obtain ⟨s1, h1⟩ := h.set_total (x := some (s.outer q)) (hl c (by simp)).1 (hl c (by simp)).2
    have hu := setParent_up h (hl c (by simp)).1 (hl c (by simp)).2 ho h1
    have h1' := h1
    obtain ⟨C, rfl⟩ := setParent_eq h1
    refine ex_bind (a := ()) (check_ok.2 (hw c (by simp))) (ex_bind h1' (ih (hu.frame rfl rfl rfl) n2 (fun d hd => hl d (by simp [hd]))
      (fun d hd => ?_) ho))
    have : d ≠ c := by rintro rfl; exact n1 hd
    simp only [upd, Function.update_of_ne this]
    exact hw d (by simp [hd])

theorem movePoints_total {q : Id} {l : List Id} : ∀ {s : St K}, Free True s → q ∈ s.qid.live → (∀ p ∈ l, p ∈ s.pid.live) →
    ∃ s', movePoints q l s = .ok s' := by
  induction l with
  | nil => intro s _ _ _; exact ⟨s, rfl⟩
  | cons p l ih =>
    intro s hF hq hl
    obtain ⟨s1, h1⟩ := setPolygon_total (q := q) hF (hl p (by simp))
    have hF1 := (setPolygon_free hF (hl p (by simp)) (fun _ => hq) h1).1
    have h1' := h1
    obtain ⟨pp, fp, rfl⟩ := setPolygon_eq h1
    exact ex_bind h1' (ih hF1 hq (fun p hp => hl p (by simp [hp])))

variable [Field K]

/-- `_rm_wire` returns for a segment that is a wire of its own. -/
theorem rmWire_total {s : St K} (h : Nested s) {e : Id} (he : e ∈ s.sid.live) (h1 : s.next (e, true) = some (e, false))
    (h2 : s.next (e, false) = some (e, true)) (hin : ∀ w q, s.wire (e, true) = some w → s.wpoly w = some q → s.outer q ≠ w) :
    ∃ s', rmWire e s = .ok s' := by
  have hL := h.inv.links
  have hO := h.onePoly (d := (e, true)) he h1
  obtain ⟨w, q, k1, k2, k3, k4, k5⟩ := h.side (d := (e, true)) he
  have hp : s.parent w = some (s.outer q) := by
    obtain ⟨q', e1, e2, e3⟩ := h.nest.pols w k2
    rw [k4] at e2
    cases e2
    exact e3.resolve_left (hin w q k1 k4)
  have hm : w ∈ s.childs (s.outer q) := by
    rcases (h.tree.up w k2 _ hp).2 with hh | hh
    · exact hh
    · exact absurd (hh ▸ hp) (h.nest.self k2)
  obtain ⟨m, hm'⟩ := Ids.remove_total k2
  unfold rmWire
  refine ex_bind (a := ()) (check_ok.2 ⟨h1, h2⟩) (ex_bind (a := ()) (check_ok.2 hO.1) (ex_bind (need_ok.2 k1) (ex_bind (need_ok.2 k4)
    (ex_bind (removeSet_ok.2 ⟨hm, rfl⟩) (ex_bind hm' ?_)))))
  exact destroySegment_total (X := ∅) (Y := ∅) (hL.frame rfl rfl rfl rfl rfl) (h.free.congr rfl rfl rfl rfl rfl) he
    (Or.inr ⟨by simp, h2, by simp⟩) (Or.inr ⟨by simp, h1, by simp⟩) (hO.congr rfl rfl) (h.live he)

/-- `_wire_rm_dendrite` returns for a segment with one free end. -/
theorem wireRmDendrite_total {s : St K} (h : Nested s) {e : Id} {tip : Bool} (he : e ∈ s.sid.live)
    (ht : s.next (e, tip) = some (e, !tip)) (hr : s.next (e, !tip) ≠ some (e, tip)) : ∃ s', wireRmDendrite e tip s = .ok s' := by
  have hL := h.inv.links
  have hO := h.onePoly (d := (e, tip)) he ht
  dsimp only at hO
  obtain ⟨w, q, k1, k2, k3, k4, k5⟩ := h.side (d := (e, false)) he
  obtain ⟨s1, h1⟩ := disconnectWires_total hL he (fun v => (h.wires.lab (e, v) he).imp fun _ h => h.1)
    (fun d k hd hk => (h.wires.next_wire hd hk).2) (by
      rintro ⟨h1, h2⟩
      cases tip
      · exact hr h1
      · exact hr h2)
  have h1' := h1
  obtain ⟨ws, rfl, hws⟩ := disconnectWires_eq h1
  obtain ⟨s2, h2⟩ := disconnectVtx_total (d := (e, !tip)) (X := ∅) (Y := ∅) (s := { s with wseg := ws })
    (hL.frame rfl rfl rfl rfl rfl) (h.free.congr rfl rfl rfl rfl rfl) he (by simp) (by simp) (fun _ => hO.congr rfl rfl)
  have hF2 := disconnectVtx_free (T := True) (s := { s with wseg := ws }) (h.free.congr rfl rfl rfl rfl rfl)
    (hL.vlive (e, !tip) he) (fun _ => h.live he) h2
  have h2' := h2
  obtain ⟨r, pp, fp, o, d1, d2, d3, _, rfl, hL2, d4, d5⟩ :=
    disconnectVtx_links (s := { s with wseg := ws }) (hL.frame rfl rfl rfl rfl rfl) (d := (e, !tip)) he (by simp)
      (by simp) h2
  simp only [flip_mk, Bool.not_not] at d1 d3 d4 hL2 hF2 h2'
  have hre : r.1 ≠ e := by
    intro hre
    rcases eq_or_flip (h := r) (k := ((e, tip) : HE)) hre with rfl | rfl
    · rw [ht] at d1
      simp at d1
    · exact hr d1
  have hrt : r ≠ (e, tip) := fun h => hre (by rw [h])
  have htn : ((e, tip) : HE) ≠ (e, !tip) := by simp
  have hins : (insert ((e, !tip) : HE) ∅ : Set HE) = {(e, !tip)} := by ext; simp
  rw [hins] at hL2
  have hN : upd (upd s.next r (s.next (e, !tip))) (e, !tip) (some (e, tip)) (e, tip) = some (e, !tip) := by
    simp only [upd, Function.update_of_ne htn, Function.update_of_ne hrt.symm, ht]
  have hE1 : ∀ k, upd s.pseg (s.vtx (e, !tip)) o (s.vtx (e, !tip)) = some k → k.1 ≠ e := by
    intro k hk
    simp only [upd, Function.update_self] at hk
    exact d4 k hk
  unfold wireRmDendrite
  refine ex_bind (a := ()) (check_ok.2 hO.1) (ex_bind (a := q) (bind_ok.2 ⟨w, need_ok.2 k1, need_ok.2 k4⟩) (ex_bind h1'
    (ex_bind h2' ?_)))
  obtain ⟨s3, h3⟩ := destroySegment_total (X := {((e, !tip) : HE)}) (Y := ∅) hL2 hF2 he
    (by
      cases tip
      · exact Or.inr ⟨by simp, hN, by simp⟩
      · exact Or.inl ⟨rfl, hE1⟩)
    (by
      cases tip
      · exact Or.inl ⟨rfl, hE1⟩
      · exact Or.inr ⟨by simp, hN, by simp⟩) (hO.congr rfl rfl) (h.live he)
  exact ex_bind h3 ⟨_, rfl⟩

theorem Wires.all_of {s t : St K} (h : Wires s) {w : Id} (hw : w ∈ s.wid.live) (h0 : w ≠ 0) (t1 : t.next = s.next)
    (t2 : t.wseg = s.wseg) (t3 : ∀ i ∈ s.sid.live, i < t.sid.nxt) (t4 : t.parent w ≠ none) :
    ∃ l, wireAll t w = .ok l ∧ l.Nodup ∧ ∀ d, d ∈ l ↔ d.1 ∈ s.sid.live ∧ s.wire d = some w := by
  obtain ⟨d, h1, h2, h3⟩ := h.seg w hw h0
  obtain ⟨l, hl⟩ := h.cyc w hw h0
  obtain ⟨a, ha⟩ := hl.path
  obtain ⟨l', k1, k2, k3⟩ := path_from ha hl.nd ((hl.mem d).2 ⟨h2, h3⟩)
  refine ⟨d :: l', ?_, k3, fun c => k2.mem_iff.trans (hl.mem c)⟩
  unfold wireAll
  rw [if_neg t4, t2]
  rw [← t1] at k1
  refine bind_ok.2 ⟨_, need_ok.2 h1, walkGo_ok k1 (by simp) (List.nodup_cons.1 k3).1 (List.nodup_cons.1 k3).1 ?_⟩
  have := length_le_two_mul k3 (fun c hc => t3 _ ((hl.mem c).1 (k2.subset hc)).1)
  unfold fuel
  omega

/-- The choice of `_join_poly` returns and removes an outer wire. -/
theorem joinKind_total {s : St K} (h : Nested s) {e lw rw lq rq : Id} (he : e ∈ s.sid.live) (h1 : s.wire (e, true) = some lw)
    (h2 : s.wire (e, false) = some rw) (hne : lw ≠ rw) (h3 : s.wpoly lw = some lq) (h4 : s.wpoly rw = some rq) :
    ∃ q q' keep ch, joinKind s lw rw lq rq = .ok (q, q', keep, ch) ∧ q ∈ s.qid.live ∧ q' ∈ s.qid.live ∧ s.outer q' ≠ 0 ∧
      keep ∈ s.wid.live ∧ keep ≠ s.outer q' ∧ s.wpoly keep = some q ∧ s.parent keep ≠ some (s.outer q') ∧
      ((lw = keep ∧ rw = s.outer q') ∨ (rw = keep ∧ lw = s.outer q')) := by
  obtain ⟨wl, wr, nl, nr⟩ := h.nest.shw _ _ (h.share (v := true) he h1 h2)
  have ql := h.polyLive (d := (e, true)) he h1 h3
  have qr := h.polyLive (d := (e, false)) he h2 h4
  obtain ⟨hqq, hb⟩ := h.between he h1 h2 hne h3 h4
  unfold joinKind
  rcases hb with ⟨b1, b2, b3⟩ | ⟨b1, b2, b3⟩ | ⟨b1, b2, b3⟩
  · rw [if_pos b3]
    refine ⟨rq, lq, rw, _, bind_ok.2 ⟨(), check_ok.2 b1.symm, bind_ok.2 ⟨(), check_ok.2 b2.symm, rfl⟩⟩, qr, ql, b1 ▸ nl, wr, by rw [b1]; exact hne.symm,
      h4, ?_, Or.inr ⟨rfl, b1.symm⟩⟩
    rw [b1, ← b3]
    exact h.nest.self wl
  · have n1 : s.parent lw ≠ s.parent rw := by
      rw [b3]
      exact fun hh => h.nest.self wr hh.symm
    rw [if_neg n1, if_pos b3]
    refine ⟨rq, lq, rw, _, rfl, qr, ql, b1 ▸ nl, wr, by rw [b1]; exact hne.symm, h4, ?_, Or.inr ⟨rfl, b1.symm⟩⟩
    rw [b1]
    exact h.nest.swap wl b3
  · have n1 : s.parent lw ≠ s.parent rw := by
      rw [b3]
      exact fun hh => h.nest.self wl hh
    have n2 : s.parent lw ≠ some rw := h.nest.swap wr b3
    rw [if_neg n1, if_neg n2]
    refine ⟨lq, rq, lw, _, bind_ok.2 ⟨(), check_ok.2 b3, rfl⟩, ql, qr, b1 ▸ nr, wl, by rw [b1]; exact hne, h3, ?_, Or.inl ⟨rfl, b1.symm⟩⟩
    rw [b1]
    exact n2

/-- Both ends of a segment without free ends are taken out of the lists at their points. -/
theorem unlink_total {e : Id} {s : St K} (hL : Links s ∅ ∅) (he : e ∈ s.sid.live) (hF : Free True s) (hP : PolyLive s e)
    (n0 : s.next (e, false) ≠ some (e, true)) (n1 : s.next (e, true) ≠ some (e, false)) :
    ∃ s1 s2, disconnectVtx (e, false) s = .ok s1 ∧ disconnectVtx (e, true) s1 = .ok s2 := by
  obtain ⟨s1, h1⟩ := disconnectVtx_total (d := (e, false)) hL hF he (by simp) (by simp) (fun hh => absurd hh n0)
  have hF1 := disconnectVtx_free hF (hL.vlive (e, false) he) (fun _ => hP) h1
  have h1' := h1
  obtain ⟨r0, pp, fp, o0, d1, d2, d3, _, rfl, hL1, d4, d5⟩ := disconnectVtx_links hL (d := (e, false)) he (by simp)
    (by simp) h1
  obtain ⟨s2, h2⟩ := disconnectVtx_total (d := (e, true)) hL1 hF1 he (by simp) (by simp) (fun hh => by
    exfalso
    have e0 : ((e, true) : HE) ≠ (e, false) := by simp
    have a2 : (e, true) ≠ r0 := by
      rintro rfl
      exact hL.vne e he d3.symm
    simp only [upd, flip_mk, Bool.not_false, Bool.not_true, Function.update_of_ne e0, Function.update_of_ne a2] at hh
    exact n1 hh)
  exact ⟨_, s2, h1', h2⟩

/-- `_join_poly` returns for a segment between two polygons. -/
theorem joinPoly_total {s : St K} (h : Nested s) {e : Id} (he : e ∈ s.sid.live) (hn : ∀ v, s.next (e, v) ≠ some (e, !v))
    (hd : s.wire (e, true) ≠ s.wire (e, false)) : ∃ s', joinPoly e s = .ok s' := by
  have hL := h.inv.links
  obtain ⟨lw, lq, l1, l2, l3, l4, l5⟩ := h.side (d := (e, true)) he
  obtain ⟨rw, rq, r1, r2, r3, r4, r5⟩ := h.side (d := (e, false)) he
  have hne : lw ≠ rw := fun hh => hd (by rw [l1, r1, hh])
  obtain ⟨q, q', keep, ch, hk, hq, hq', hm0, hkw, hkm, hkq, hkp, hlr⟩ := joinKind_total h he l1 r1 hne l4 r4
  have hmw := (h.nest.outs q' hq').1
  have how := (h.nest.outs q hq).1
  have hch : ∀ c ∈ s.childs (s.outer q'), c ∈ s.wid.live ∧ c ≠ 0 := fun c hc =>
    ⟨(h.tree.child hmw hc).1, h.nest.nz (h.tree.child hmw hc).2⟩
  have hkc : keep ∉ s.childs (s.outer q') := fun hh => hkp (h.tree.child hmw hh).2
  have hmc : s.outer q' ∉ s.childs (s.outer q') := fun hh => h.nest.self hmw (h.tree.child hmw hh).2
  unfold joinPoly
  refine ex_bind (need_ok.2 l1) (ex_bind (need_ok.2 r1) (ex_bind (need_ok.2 l4) (ex_bind (need_ok.2 r4) (ex_bind hk ?_))))
  dsimp only
  obtain ⟨s1, h1⟩ := joinChilds_total (q := q) (q' := q') (l := s.childs (s.outer q')) (s := { s with change := ch })
    (h.tree.frame rfl rfl rfl) (h.tree.nd _ hmw) hch
    (fun c hc => (h.nest.child (hch c hc).1 hq' (h.tree.child hmw hc).2).1) how
  have hu1 := joinChilds_up h1 (h.tree.frame rfl rfl rfl) hch how
  refine ex_bind h1 ?_
  obtain ⟨C1, rfl⟩ := joinChilds_eq h1
  clear h1
  dsimp only at hu1 ⊢
  have hF1 : Free True (K := K) { s with
      change := ch
      parent := fun c => if c ∈ s.childs (s.outer q') then some (s.outer q) else s.parent c
      childs := C1
      wpoly := fun c => if c ∈ s.childs (s.outer q') then some q else s.wpoly c } := h.free.congr rfl rfl rfl rfl rfl
  obtain ⟨s2, h2⟩ := movePoints_total (q := q) (l := s.fpts q') hF1 hq (fun p hp => (h.free.pseg hp).2)
  obtain ⟨fp, e2, hF2⟩ := movePoints_eff (T := True) h2 hF1 (fun p hp => h.free.pseg hp) (fun _ => hq)
  subst e2
  refine ex_bind h2 ?_
  clear h2
  dsimp only at hF2 ⊢
  obtain ⟨s3, h3⟩ := (hu1.frame (s' := { s with
      change := ch
      parent := fun c => if c ∈ s.childs (s.outer q') then some (s.outer q) else s.parent c
      childs := C1
      wpoly := fun c => if c ∈ s.childs (s.outer q') then some q else s.wpoly c
      ppoly := fun p => if p ∈ s.fpts q' then some q else s.ppoly p
      fpts := fp }) rfl rfl rfl).set_total (x := some (s.outer q')) hmw hm0
  refine ex_bind h3 ?_
  obtain ⟨C2, rfl⟩ := setParent_eq h3
  clear h3
  dsimp only
  refine Exists.elim (h.wires.all_of (t := { s with
      change := ch
      parent := upd (fun c => if c ∈ s.childs (s.outer q') then some (s.outer q) else s.parent c) (s.outer q') (some (s.outer q'))
      childs := C2
      wpoly := fun c => if c ∈ s.childs (s.outer q') then some q else s.wpoly c
      ppoly := fun p => if p ∈ s.fpts q' then some q else s.ppoly p
      fpts := fp }) hmw hm0 rfl rfl hL.sids.lt (by simp [upd])) ?_
  rintro l ⟨hl, hln, hlm⟩
  refine ex_bind hl ?_
  obtain ⟨s4, h4⟩ := relabel_total (x := s.outer q') (y := keep) (l := l) (s := { s with
      change := ch
      parent := upd (fun c => if c ∈ s.childs (s.outer q') then some (s.outer q) else s.parent c) (s.outer q') (some (s.outer q'))
      childs := C2
      wpoly := fun c => if c ∈ s.childs (s.outer q') then some q else s.wpoly c
      ppoly := fun p => if p ∈ s.fpts q' then some q else s.ppoly p
      fpts := fp }) hln (fun d hd => ((hlm d).1 hd).2)
  refine ex_bind h4 ?_
  obtain ⟨rfl, _⟩ := relabel_eq hln h4
  clear h4
  dsimp only
  have hwe : ∀ v, (if (e, v) ∈ l then some keep else s.wire (e, v)) = some keep := by
    intro v
    split
    · rfl
    · next hv =>
      have hv' : s.wire (e, v) ≠ some (s.outer q') := fun hh => hv ((hlm _).2 ⟨he, hh⟩)
      rcases hlr with ⟨k1, k2⟩ | ⟨k1, k2⟩ <;> cases v
      · rw [r1, k2] at hv'
        exact absurd rfl hv'
      · rw [l1, k1]
      · rw [r1, k1]
      · rw [l1, k2] at hv'
        exact absurd rfl hv'
  have hL4 : Links (K := K) { s with
      change := ch
      parent := upd (fun c => if c ∈ s.childs (s.outer q') then some (s.outer q) else s.parent c) (s.outer q') (some (s.outer q'))
      childs := C2
      wpoly := fun c => if c ∈ s.childs (s.outer q') then some q else s.wpoly c
      ppoly := fun p => if p ∈ s.fpts q' then some q else s.ppoly p
      fpts := fp
      wire := fun d => if d ∈ l then some keep else s.wire d } ∅ ∅ := hL.frame rfl rfl rfl rfl rfl
  obtain ⟨s5, h5⟩ := disconnectWires_total hL4 he (fun v => ⟨keep, hwe v⟩) (fun d k hd hk => by
      have hk' : s.next d = some k := hk
      obtain ⟨k1, k2⟩ := h.wires.next_wire hd hk'
      have : k ∈ l ↔ d ∈ l := by
        rw [hlm, hlm, k2]
        simp [k1, hd]
      simp only [this, k2]) (fun hh => hn true hh.1)
  refine ex_bind h5 ?_
  obtain ⟨ws, e5, _⟩ := disconnectWires_eff h5 hL4 he
  subst e5
  clear h5
  dsimp only
  have hO : OnePoly (K := K) { s with
      change := ch
      parent := upd (fun c => if c ∈ s.childs (s.outer q') then some (s.outer q) else s.parent c) (s.outer q') (some (s.outer q'))
      childs := C2
      wpoly := fun c => if c ∈ s.childs (s.outer q') then some q else s.wpoly c
      ppoly := fun p => if p ∈ s.fpts q' then some q else s.ppoly p
      fpts := fp
      wire := fun d => if d ∈ l then some keep else s.wire d
      wseg := ws } e := by
    refine ⟨(hwe true).trans (hwe false).symm, q, bind_ok.2 ⟨keep, need_ok.2 (hwe true), need_ok.2 ?_⟩⟩
    dsimp only
    rw [if_neg hkc, hkq]
  have hP : PolyLive (K := K) { s with
      change := ch
      parent := upd (fun c => if c ∈ s.childs (s.outer q') then some (s.outer q) else s.parent c) (s.outer q') (some (s.outer q'))
      childs := C2
      wpoly := fun c => if c ∈ s.childs (s.outer q') then some q else s.wpoly c
      ppoly := fun p => if p ∈ s.fpts q' then some q else s.ppoly p
      fpts := fp
      wire := fun d => if d ∈ l then some keep else s.wire d
      wseg := ws } e := by
    intro w x h9 h10
    have h9' := (hwe true).symm.trans h9
    cases h9'
    have h11 : (if keep ∈ s.childs (s.outer q') then some q else s.wpoly keep) = some x := h10
    rw [if_neg hkc, hkq] at h11
    cases h11
    exact hq
  obtain ⟨s6, s7, h6, h7⟩ := unlink_total (hL4.frame (s' := { s with
      change := ch
      parent := upd (fun c => if c ∈ s.childs (s.outer q') then some (s.outer q) else s.parent c) (s.outer q') (some (s.outer q'))
      childs := C2
      wpoly := fun c => if c ∈ s.childs (s.outer q') then some q else s.wpoly c
      ppoly := fun p => if p ∈ s.fpts q' then some q else s.ppoly p
      fpts := fp
      wire := fun d => if d ∈ l then some keep else s.wire d
      wseg := ws }) rfl rfl rfl rfl rfl) he (hF2.congr rfl rfl rfl rfl rfl) hP (hn false) (hn true)
  refine ex_bind h6 (ex_bind h7 ?_)
  obtain ⟨r0, r1', ps, N, e7, hU, hL2, hF6, hE0, hE1, hps, hps'⟩ := unlink_eff (T := True) h6 h7
    (hL4.frame rfl rfl rfl rfl rfl) he (hF2.congr rfl rfl rfl rfl rfl) (fun _ => hP) (hn false) (hn true)
  clear h6 h7
  subst e7
  obtain ⟨s8, h8⟩ := destroySegment_total hL2 hF6 he hE0 hE1 (hO.congr rfl rfl) hP
  refine ex_bind h8 ?_
  obtain ⟨_, _, m', tb, e8⟩ := destroy_keep h8 hL2 he hE0 hE1 hps
  subst e8
  obtain ⟨m, hm⟩ := Ids.remove_total hmw
  obtain ⟨n, hn'⟩ := Ids.remove_total hq'
  exact ex_bind hm (ex_bind hn' ⟨_, rfl⟩)

/-- A segment with two free ends is on both sides of its wire and alone in it. -/
theorem Nested.lone_wire {s : St K} (h : Nested s) {e : Id} (he : e ∈ s.sid.live) (h1 : s.next (e, true) = some (e, false))
    (h2 : s.next (e, false) = some (e, true)) {w : Id} (hw : s.wire (e, true) = some w) {d : HE} (hd : d.1 ∈ s.sid.live)
    (hdw : s.wire d = some w) : d.1 = e := by
  obtain ⟨w', k1, k2, k3⟩ := h.wires.lab (e, true) he
  rw [hw] at k1
  cases k1
  obtain ⟨l, hl⟩ := h.wires.cyc w k2 k3
  obtain ⟨a, ha⟩ := hl.path
  obtain ⟨l', p1, p2, p3⟩ := path_from ha hl.nd ((hl.mem (e, true)).2 ⟨he, hw⟩)
  have hdl : d ∈ (e, true) :: l' := p2.symm.subset ((hl.mem d).2 ⟨hd, hdw⟩)
  obtain ⟨_, k, q1, q2⟩ := p1
  rw [h1] at q1
  cases q1
  cases l' with
  | nil =>
    simp only [List.mem_cons, List.not_mem_nil, or_false] at hdl
    rw [hdl]
  | cons x l'' =>
    obtain ⟨rfl, k, q3, q4⟩ := q2
    rw [h2] at q3
    cases q3
    cases l'' with
    | nil =>
      simp only [List.mem_cons, List.not_mem_nil, or_false] at hdl
      rcases hdl with rfl | rfl <;> rfl
    | cons y l3 =>
      obtain ⟨rfl, _⟩ := q4
      simp at p3

theorem Nested.lone_hole {s : St K} (h : Nested s) {e : Id} (he : e ∈ s.sid.live) (h1 : s.next (e, true) = some (e, false))
    (h2 : s.next (e, false) = some (e, true)) (w q : Id) (hw : s.wire (e, true) = some w) (hq : s.wpoly w = some q) : s.outer q ≠ w := by
  obtain ⟨w', k1, k2, k3⟩ := h.wires.lab (e, true) he
  rw [hw] at k1
  cases k1
  have hO := (h.onePoly (d := (e, true)) he h1).1
  obtain ⟨hn, _⟩ := h.nest.lone k2 k3 (fun y hy => by
    obtain ⟨d, d1, d2, d3⟩ := hy
    have hd := h.lone_wire he h1 h2 hw d1 d2
    have : s.wire (flip d) = some w := by
      obtain ⟨d, v⟩ := d
      dsimp only at hd
      subst hd
      have hO' : s.wire (d, true) = s.wire (d, false) := hO
      cases v
      · exact hw
      · exact hO'.symm.trans hw
    rw [this] at d3
    exact (Option.some.inj d3).symm)
  exact fun hh => hn ⟨q, h.polyLive (d := (e, true)) he hw hq, hh⟩

section
variable [LinearOrder K]

/-- `delete_segment` returns if the segment has a free end or two polygons. -/
theorem deleteSegment_total {g : Geom K} {s : St K} (h : Nested s) {e : Id} (he : e ∈ s.sid.live)
    (hb : s.wire (e, true) = s.wire (e, false) → ∃ v, s.next (e, v) = some (e, !v)) : ∃ s', deleteSegment g e s = .ok s' := by
  have h0 := h.quiet
  unfold deleteSegment
  dsimp only
  split
  · next hn => exact rmWire_total h0 he hn.1 hn.2 (h0.lone_hole he hn.1 hn.2)
  · next hn =>
    split
    · next ht => exact wireRmDendrite_total h0 he ht (fun hh => hn ⟨ht, hh⟩)
    · next ht =>
      split
      · next ht' => exact wireRmDendrite_total h0 he ht' (fun hh => hn ⟨hh, ht'⟩)
      · next ht' =>
        have hv : ∀ v, s.next (e, v) ≠ some (e, !v) := by
          intro v
          cases v
          · exact ht'
          · exact ht
        have hd : s.wire (e, true) ≠ s.wire (e, false) := fun hh => (hb hh).elim fun v k => hv v k
        split
        · next hh => exact absurd hh hd
        · exact joinPoly_total h0 he hv hd

end

end Verif.Decomp
