import Verif.Decomp.Total

/-! The operations that add a segment return if the state is nested and the checks of polygons hold. -/

namespace Verif.Decomp

variable {K : Type}

theorem UpTree.set_total {w : Id} {x : Option Id} {s : St K} (h : UpTree s) (hw : w ∈ s.wid.live) (hw0 : w ≠ 0) :
    ∃ s', setParent w x s = .ok s' := by
  unfold setParent leaveParent
  cases hp : s.parent w with
  | none => exact absurd hp (h.non w hw hw0)
  | some q =>
    have := (h.up w hw q hp).2
    cases x <;> simp [check, this, bind, Except.bind]

theorem UpTree.sets_total {x : Id} {l : List Id} : ∀ {s : St K}, UpTree s → (∀ c ∈ l, c ∈ s.wid.live ∧ c ≠ 0) → x ∈ s.wid.live →
    ∃ s', setParents (some x) l s = .ok s' := by
  induction l with
  | nil => intro s _ _ _; exact ⟨s, rfl⟩
  | cons c l ih =>
    intro s h hl hx
    obtain ⟨s1, h1⟩ := h.set_total (x := some x) (hl c (by simp)).1 (hl c (by simp)).2
    have hu := setParent_up h (hl c (by simp)).1 (hl c (by simp)).2 hx h1
    obtain ⟨C, h2⟩ := setParent_eq h1
    have hw : s1.wid = s.wid := by rw [h2]
    exact ex_bind h1 (ih hu (fun d hd => by rw [hw]; exact hl d (by simp [hd])) (by rw [hw]; exact hx))

theorem relabel_total {x y : Id} {l : List HE} : ∀ {s : St K}, l.Nodup → (∀ d ∈ l, s.wire d = some x) →
    ∃ s', relabel x y l s = .ok s' := by
  induction l with
  | nil => intro s _ _; exact ⟨s, rfl⟩
  | cons d l ih =>
    intro s hn hl
    obtain ⟨h1, h2⟩ := List.nodup_cons.1 hn
    refine ex_bind (a := ()) (check_ok.2 (hl d (by simp))) (ih h2 (fun c hc => ?_))
    have : c ≠ d := by rintro rfl; exact h1 hc
    simp only [upd, Function.update_of_ne this]
    exact hl c (by simp [hc])

theorem wireSegments_total {s : St K} (hs : s.sid.Ok) {w : Id} {start stop : HE} {l : List HE} (hp : Path s.next start l stop)
    (hl : l ≠ []) (hn : l.Nodup) (hstop : stop ∉ l.tail) (hlive : ∀ d ∈ l, d.1 ∈ s.sid.live) (hpar : s.parent w ≠ none) :
    wireSegments s w start stop = .ok l := by
  unfold wireSegments
  rw [if_neg hpar]
  refine walkGo_ok hp hl hstop ?_ ?_
  · cases l with
    | nil => simp
    | cons x l =>
      obtain rfl := path_head hp
      exact (List.nodup_cons.1 hn).1
  · have := length_le_two_mul hn (fun d hd => hs.lt _ (hlive d hd))
    unfold fuel
    omega

variable [Field K]

theorem Nested.live {s : St K} (h : Nested s) {e : Id} (he : e ∈ s.sid.live) : PolyLive s e :=
  fun _ _ h1 h2 => h.polyLive (d := (e, true)) he h1 h2

theorem Nested.onePoly {s : St K} (h : Nested s) {d : HE} (he : d.1 ∈ s.sid.live) (hn : s.next d = some (flip d)) : OnePoly s d.1 := by
  have h1 := (h.wires.next_wire he hn).2
  obtain ⟨w, q, k1, _, _, k4, _⟩ := h.side (d := (d.1, true)) he
  refine ⟨?_, q, bind_ok.2 ⟨w, need_ok.2 k1, need_ok.2 k4⟩⟩
  obtain ⟨e, v⟩ := d
  unfold isDendrite
  cases v
  · exact h1
  · exact h1.symm

/-- `split_segment` returns for a segment and a free point. -/
theorem splitSegment_total {s : St K} (h : Nested s) {e mid : Id} (he : e ∈ s.sid.live) (hm : mid ∈ s.pid.live)
    (hfree : s.pseg mid = none) : ∃ r, splitSegment e mid s = .ok r := by
  have hL := h.inv.links
  have hm0 : s.vtx (e, false) ≠ mid := hL.no_seg hm (by simp) hfree _ he
  have hm1 : s.vtx (e, true) ≠ mid := hL.no_seg hm (by simp) hfree _ he
  have hvne := hL.vne e he
  -- links at the second end
  obtain ⟨bi, hbi⟩ : ∃ bi, vtxInsertInfo s (e, true) = .ok bi := by
    obtain ⟨k, h1, h2, h3, _⟩ := hL.next_ok (d := (e, true)) he (by simp)
    unfold vtxInsertInfo
    refine ex_bind (need_ok.2 h1) ?_
    split
    · exact ⟨_, rfl⟩
    · obtain ⟨l, hring, _⟩ := hL.ring _ (hL.vlive (e, true) he)
      obtain ⟨r, h5, h6, h7⟩ := previous_ring hL.sids hring ((hring.mem (e, true)).2 ⟨he, rfl, by simp⟩)
      exact ex_bind h6 ⟨_, rfl⟩
  have hbi' := vtxInsertInfo_ok hbi hL he
  obtain ⟨s1, h1⟩ := disconnectVtx_total (d := (e, true)) hL h.free he (by simp) (by simp)
    (fun hn => h.onePoly (d := (e, true)) he hn)
  have hF1 := disconnectVtx_free h.free (hL.vlive (e, true) he) (fun _ => h.live he) h1
  have h1' := h1
  obtain ⟨r, pp, fp, o, d1, d2, d3, d6, rfl, hL1, d4, d5⟩ := disconnectVtx_links hL (d := (e, true)) he (by simp)
    (by simp) h1
  clear h1
  obtain ⟨n, s3, h3⟩ := makeSegment_total (a := mid) (b := s.vtx (e, true)) (s := { s with
    ppoly := pp
    fpts := fp
    pseg := upd s.pseg (s.vtx (e, true)) o
    next := upd (upd s.next r (s.next (e, true))) (e, true) (some (flip (e, true)))
    table := upd (upd s.table (s.vtx (e, false), s.vtx (e, true)) none) (s.vtx (e, false), mid) (some e) })
    (hF1.congr rfl rfl rfl rfl rfl) hm1.symm hm (hL.vlive (e, true) he)
  have hF3 := makeSegment_free (T := True) (s := { s with
    ppoly := pp
    fpts := fp
    pseg := upd s.pseg (s.vtx (e, true)) o
    next := upd (upd s.next r (s.next (e, true))) (e, true) (some (flip (e, true)))
    table := upd (upd s.table (s.vtx (e, false), s.vtx (e, true)) none) (s.vtx (e, false), mid) (some e) })
    (hF1.congr rfl rfl rfl rfl rfl) h3
  have h3' := h3
  obtain ⟨_, hn, pp', fp', rfl⟩ := makeSegment_eq h3
  dsimp only at hn
  obtain ⟨hn1, hn2, _⟩ := Ids.append_ok hL.sids
  rw [← hn] at hn1 hn2
  have hen : e ≠ n := fun h => hn1 (h ▸ he)
  have a1 : ((e, true) : HE) ≠ (n, false) := by simp
  have a2 : ((e, true) : HE) ≠ (n, true) := by simpa using hen
  have a3 : ((n, false) : HE) ≠ (n, true) := by simp
  have hVe : upd (upd (upd s.vtx (n, false) mid) (n, true) (s.vtx (e, true))) (e, true) mid (e, true) = mid := by
    simp [upd]
  have hV0 : upd (upd (upd s.vtx (n, false) mid) (n, true) (s.vtx (e, true))) (e, true) mid (n, false) = mid := by
    simp only [upd, Function.update_of_ne a1.symm, Function.update_of_ne a3, Function.update_self]
  have hV1 : upd (upd (upd s.vtx (n, false) mid) (n, true) (s.vtx (e, true))) (e, true) mid (n, true) =
      s.vtx (e, true) := by
    simp only [upd, Function.update_of_ne a2.symm, Function.update_self]
  have hVo : ∀ d : HE, d ≠ (e, true) → d.1 ≠ n →
      upd (upd (upd s.vtx (n, false) mid) (n, true) (s.vtx (e, true))) (e, true) mid d = s.vtx d := by
    intro d h1 h2
    have h3 : d ≠ (n, true) := fun h => h2 (by rw [h])
    have h4 : d ≠ (n, false) := fun h => h2 (by rw [h])
    simp only [upd, Function.update_of_ne h1, Function.update_of_ne h3, Function.update_of_ne h4]
  unfold splitSegment
  refine ex_bind hbi (ex_bind h1' ?_)
  dsimp only
  refine ex_bind (a := { s with
    ppoly := pp
    fpts := fp
    pseg := upd s.pseg (s.vtx (e, true)) o
    next := upd (upd s.next r (s.next (e, true))) (e, true) (some (flip (e, true)))
    table := upd s.table (s.vtx (e, false), s.vtx (e, true)) none }) ?_ ?_
  · unfold delKey
    rw [if_neg]
    dsimp only
    rw [(h.inv.tab.exact_ _ _ e).2 ⟨he, rfl, rfl⟩]
    simp
  refine ex_bind h3' ?_
  dsimp only
  obtain ⟨s4, h4⟩ := connectVtx_total (d := (n, false)) (i := ((e, true), (e, false), s.wire (e, false))) (s := { s with
    ppoly := pp'
    fpts := fp'
    pseg := makePs { s with
      ppoly := pp
      fpts := fp
      pseg := upd s.pseg (s.vtx (e, true)) o
      next := upd (upd s.next r (s.next (e, true))) (e, true) (some (flip (e, true)))
      table := upd (upd s.table (s.vtx (e, false), s.vtx (e, true)) none) (s.vtx (e, false), mid) (some e) } n mid (s.vtx (e, true))
    sid := s.sid.append.2
    vtx := upd (upd (upd s.vtx (n, false) mid) (n, true) (s.vtx (e, true))) (e, true) mid
    wire := upd (upd s.wire (n, false) none) (n, true) none
    next := upd (upd (upd (upd s.next r (s.next (e, true))) (e, true) (some (flip (e, true)))) (n, false) none) (n, true) none
    vec := upd (upd s.vec n ((s.xy (s.vtx (e, true))).1 - (s.xy mid).1, (s.xy (s.vtx (e, true))).2 - (s.xy mid).2)) e
      ((s.xy mid).1 - (s.xy (s.vtx (e, false))).1, (s.xy mid).2 - (s.xy (s.vtx (e, false))).2)
    table := upd (upd (upd s.table (s.vtx (e, false), s.vtx (e, true)) none) (s.vtx (e, false), mid) (some e))
      (mid, s.vtx (e, true)) (some n) })
    (hF3.congr rfl rfl rfl rfl rfl) (by dsimp only; rw [hV0]; exact hm)
    (by show upd _ _ _ (flip (e, false)) = upd _ _ _ (n, false); rw [hV0]; exact hVe)
    (by dsimp only; rw [hV0]; exact hVe)
  have hF4 : Free True s4 := by
    refine connectVtx_free ?_ h4
    exact hF3.congr rfl rfl rfl rfl rfl
  refine ex_bind h4 ?_
  have h4' := h4
  unfold connectVtx setNext at h4'
  simp only [bind_ok, check_ok, Except.ok.injEq] at h4'
  obtain ⟨s5, hj, s6, ⟨_, _, rfl⟩, s7, ⟨_, _, rfl⟩, rfl⟩ := h4'
  obtain ⟨pp2, fp2, rfl⟩ := joinSegment_eq hj
  dsimp only at hF4 ⊢
  refine Exists.elim (p := fun s' => connectEnd (n, true) bi e _ _ = .ok s') ?_ (fun s' hs' => ⟨_, bind_ok.2 ⟨s', hs', rfl⟩⟩)
  unfold connectEnd
  rcases hbi' with ⟨rfl, hb⟩ | ⟨r', k, rfl, hb, b1, b2, b3, b4⟩
  · dsimp only
    have hdend : s.wire (e, true) = s.wire (e, false) := ((h.wires.next_wire (x := (e, true)) he hb).2).symm
    refine ex_bind (a := ()) (check_ok.2 ?_) (connectFree_total hF4 ?_)
    · unfold isDendrite
      have b1 : ((e, false) : HE) ≠ (n, false) := by simpa using hen
      have b2 : ((e, false) : HE) ≠ (n, true) := by simp
      simp only [upd, Function.update_of_ne a1, Function.update_of_ne a2, Function.update_of_ne b1, Function.update_of_ne b2]
      exact hdend
    · dsimp only
      rw [hV1]
      exact hL.vlive (e, true) he
  · dsimp only
    have c1 : r' ≠ (e, true) := by
      rintro rfl
      rw [hb] at b2
      have h9 := Option.some.inj b2
      exact b1 (by rw [h9]; rfl)
    have c2 : r'.1 ≠ n := fun h => hn1 (h ▸ b3)
    refine connectVtx_total hF4 ?_ ?_ ?_
    · dsimp only
      rw [hV1]
      exact hL.vlive (e, true) he
    · obtain ⟨k', e1, e2, e3, _⟩ := hL.next_ok (d := (e, true)) he (by simp)
      rw [hb] at e1
      cases e1
      dsimp only
      have e4 : k.1 ≠ n := fun h => hn1 (h ▸ e2)
      rw [hV1, hVo (flip k) (fun h => b1 (show (flip k).1 = e by rw [h])) e4]
      exact e3
    · dsimp only
      rw [hV1, hVo r' c1 c2]
      exact b4

/-- `_new_wire` returns for a live polygon and two points. -/
theorem newWire_total {s : St K} (h : Nested s) {q a b : Id} (hq : q ∈ s.qid.live) (hab : a ≠ b) (ha : a ∈ s.pid.live)
    (hb : b ∈ s.pid.live) : ∃ e s', newWire q a b s = .ok (e, s') := by
  obtain ⟨h6, h7, _⟩ := Ids.append_ok h.tree.wids
  have h0 : s.wid.append.1 ≠ 0 := fun k => h6 (k ▸ h.tree.root)
  obtain ⟨s1, h1⟩ := UpTree.set_total (w := s.wid.append.1) (x := some (s.outer q))
    (s := { (newWireObj s).2 with wpoly := upd (newWireObj s).2.wpoly s.wid.append.1 (some q) })
    ((newWireObj_up h.tree).frame rfl rfl rfl) (by show _ ∈ s.wid.append.2.live; rw [h7]; simp) h0
  have h1' := h1
  obtain ⟨C, rfl⟩ := setParent_eq h1
  obtain ⟨e, s2, h2⟩ := makeSegment_total (a := a) (b := b) (s := { (newWireObj s).2 with
    wpoly := upd (newWireObj s).2.wpoly s.wid.append.1 (some q)
    parent := upd (newWireObj s).2.parent s.wid.append.1 (some (s.outer q))
    childs := C }) (h.free.congr rfl rfl rfl rfl rfl) hab ha hb
  obtain ⟨hA, hL2, hF2, _⟩ := makeSegment_eff h2 (h.inv.links.frame rfl rfl rfl rfl rfl) ha hb
    (h.free.congr (T := True) rfl rfl rfl rfl rfl)
  have hel : e ∈ s2.sid.live := (hA.live e).2 (Or.inr rfl)
  obtain ⟨s3, h3⟩ := connectFree_total (d := (e, false)) (w := some s.wid.append.1) hF2 (hL2.vlive (e, false) hel)
  have hF3 := connectFree_free hF2 h3
  obtain ⟨s4, h4⟩ := connectFree_total (d := (e, true)) (w := some s.wid.append.1) hF3 (by
    obtain ⟨s5, k1, k2⟩ := bind_ok.1 h3
    obtain ⟨pp, fp, rfl⟩ := joinSegment_eq k1
    obtain ⟨s6, k3, k4⟩ := bind_ok.1 k2
    obtain ⟨_, _, k5⟩ := bind_ok.1 k3
    cases k5
    cases k4
    exact hL2.vlive (e, true) hel)
  exact ⟨_, _, bind_ok.2 ⟨_, h1', bind_ok.2 ⟨_, h2, bind_ok.2 ⟨_, h3, bind_ok.2 ⟨_, h4, rfl⟩⟩⟩⟩⟩

theorem Corner.after {s : St K} {p : Id} {i : Ins} (hC : Corner s p i) (hL : Links s ∅ ∅) :
    i.2.1.1 ∈ s.sid.live ∧ s.vtx (flip i.2.1) = p := by
  obtain ⟨k, h1, h2, h3, _⟩ := hL.next_ok hC.live (by simp)
  rw [hC.nxt] at h1
  cases h1
  exact ⟨h2, h3.trans hC.at_⟩

/-- `_wire_add_dendrite` returns for a corner. -/
theorem wireAddDendrite_total {s : St K} (h : Nested s) {a b : Id} {i : Ins} {root : Bool} (hab : a ≠ b) (ha : a ∈ s.pid.live)
    (hb : b ∈ s.pid.live) (hC : Corner s (if root then b else a) i) :
    ∃ e s', wireAddDendrite a b i root s = .ok (e, s') := by
  have hL := h.inv.links
  obtain ⟨e, s1, h1⟩ := makeSegment_total h.free hab ha hb
  obtain ⟨hA, hL1, hF1, pp, fp, V, N, W, vc, rfl, hW, hN⟩ := makeSegment_eff h1 hL ha hb h.free
  obtain ⟨d1, d2, d3⟩ := hC.make hA
  obtain ⟨d4, d5⟩ := hC.after hL
  have hel := (hA.live e).2 (Or.inr rfl)
  have d6 : i.2.1.1 ≠ e := fun h => hA.fresh (h ▸ d4)
  have hVr : V (e, root) = if root then b else a := by
    have := hA.v0; have := hA.v1
    cases root <;> simpa
  obtain ⟨s2, h2⟩ := connectVtx_total (d := (e, root)) (i := i) hF1 (hL1.vlive (e, root) hel)
    (by
      have := hA.vo (flip i.2.1) d6
      dsimp only at this ⊢
      rw [this, hVr, d5])
    (by
      dsimp only at d3 ⊢
      rw [d3, hVr])
  have hF2 := connectVtx_free hF1 h2
  obtain ⟨s3, h3⟩ := connectFree_total (d := (e, !root)) (w := i.2.2) hF2 (by
    obtain ⟨s5, k1, k2⟩ := bind_ok.1 h2
    obtain ⟨pp, fp, rfl⟩ := joinSegment_eq k1
    obtain ⟨s6, k3, k4⟩ := bind_ok.1 k2
    obtain ⟨_, _, k5⟩ := bind_ok.1 k3
    cases k5
    obtain ⟨s7, k6, k7⟩ := bind_ok.1 k4
    obtain ⟨_, _, k8⟩ := bind_ok.1 k6
    cases k8
    cases k7
    exact hL1.vlive (e, !root) hel)
  exact ⟨_, _, bind_ok.2 ⟨_, h1, bind_ok.2 ⟨_, h2, bind_ok.2 ⟨_, h3, rfl⟩⟩⟩⟩

/-- Both ends of a new segment can be connected at corners. -/
theorem splice_total {s : St K} (hL : Links s ∅ ∅) (hF : Free True s) {a b : Id} {ia ib : Ins} {wb : Option Id} (hab : a ≠ b)
    (ha : a ∈ s.pid.live) (hb : b ∈ s.pid.live) (hCa : Corner s a ia) (hCb : Corner s b ib) :
    ∃ e s1 s2 s3, makeSegment a b s = .ok (e, s1) ∧ connectVtx (e, false) ia s1 = .ok s2 ∧
      connectVtx (e, true) (ib.1, ib.2.1, wb) s2 = .ok s3 := by
  obtain ⟨e, s1, h1⟩ := makeSegment_total hF hab ha hb
  obtain ⟨hA, hL1, hF1, pp, fp, V, N, W, vc, rfl, hW, hN⟩ := makeSegment_eff h1 hL ha hb hF
  obtain ⟨_, _, d3⟩ := hCa.make hA
  obtain ⟨d4, d5⟩ := hCa.after hL
  obtain ⟨_, _, e3⟩ := hCb.make hA
  obtain ⟨e4, e5⟩ := hCb.after hL
  have hel := (hA.live e).2 (Or.inr rfl)
  have d6 : ia.2.1.1 ≠ e := fun h => hA.fresh (h ▸ d4)
  have e6 : ib.2.1.1 ≠ e := fun h => hA.fresh (h ▸ e4)
  have v0 := hA.v0
  have v1 := hA.v1
  have va := hA.vo (flip ia.2.1) d6
  have vb := hA.vo (flip ib.2.1) e6
  dsimp only at v0 v1 va vb d3 e3
  obtain ⟨s2, h2⟩ := connectVtx_total (d := (e, false)) (i := ia) hF1 (hL1.vlive (e, false) hel)
    (by dsimp only; rw [va, v0, d5]) (by dsimp only; rw [d3, v0])
  have hF2 := connectVtx_free hF1 h2
  have h2' := h2
  obtain ⟨s5, k1, k2⟩ := bind_ok.1 h2
  obtain ⟨pp, fp, rfl⟩ := joinSegment_eq k1
  obtain ⟨s6, k3, k4⟩ := bind_ok.1 k2
  obtain ⟨_, _, k5⟩ := bind_ok.1 k3
  cases k5
  obtain ⟨s7, k6, k7⟩ := bind_ok.1 k4
  obtain ⟨_, _, k8⟩ := bind_ok.1 k6
  cases k8
  cases k7
  obtain ⟨s3, h3⟩ := connectVtx_total (d := (e, true)) (i := (ib.1, ib.2.1, wb)) hF2 (hL1.vlive (e, true) hel)
    (by dsimp only; rw [vb, v1, e5]) (by dsimp only; rw [e3, v1])
  exact ⟨e, _, _, _, h1, h2', h3⟩

/-- The closed walk of a wire opened at a corner by a new segment: a path of its sides from the one side of the segment to the
other. -/
theorem opened {s : St K} {next : HE → Option HE} (hW : Wires s) {p w : Id} {i : Ins} (hC : Corner s p i) (hw : i.2.2 = some w)
    {d k : HE} (h1 : next i.1 = some k) (h2 : next d = some i.2.1) (h3 : ∀ c : HE, c ≠ i.1 → c.1 ∈ s.sid.live → s.wire c = some w →
      next c = s.next c) (hd : d.1 ∉ s.sid.live) :
    ∃ l, Path next d (d :: l) k ∧ (d :: l).Nodup ∧ ∀ c ∈ l, c.1 ∈ s.sid.live ∧ s.wire c = some w := by
  have gw : s.wire i.1 = some w := hC.wir.symm.trans hw
  obtain ⟨w', ga, gal, ga0⟩ := hW.lab i.1 hC.live
  obtain rfl : w = w' := Option.some.inj (gw.symm.trans ga)
  obtain ⟨la, hla⟩ := hW.cyc w gal ga0
  obtain ⟨m, a1, a2, a3⟩ := hla.open_ ((hla.mem _).2 ⟨hC.live, gw⟩) hC.nxt
  have a4 : ∀ c, c ∈ m ++ [i.1] ↔ c.1 ∈ s.sid.live ∧ s.wire c = some w := fun c => (a3 c).trans (hla.mem c)
  have hi : i.1 ∉ m := by
    intro hh
    rw [List.nodup_append] at a2
    exact a2.2.2 _ hh i.1 (by simp) rfl
  refine ⟨m ++ [i.1], ⟨rfl, i.2.1, h2, path_snoc (path_congr (fun c hc => ?_) a1) h1⟩, List.nodup_cons.2 ⟨fun hh => hd ((a4 d).1 hh).1, a2⟩,
    fun c hc => (a4 c).1 hc⟩
  have := (a4 c).1 (by simp [hc])
  exact h3 c (fun hh => hi (hh ▸ hc)) this.1 this.2

/-- `_join_wires` returns for corners of two wires of one polygon. -/
theorem joinWires_total {s : St K} (h : Nested s) {a b : Id} {ia ib : Ins} (hab : a ≠ b) (ha : a ∈ s.pid.live)
    (hb : b ∈ s.pid.live) (hCa : Corner s a ia) (hCb : Corner s b ib) (hne : ia.2.2 ≠ ib.2.2)
    (hq : ia.2.2.bind s.wpoly = ib.2.2.bind s.wpoly) : ∃ e s', joinWires a b ia ib s = .ok (e, s') := by
  have hL := h.inv.links
  obtain ⟨aw, q, k1, gal, ga0, k4, k5⟩ := h.side hCa.live
  obtain ⟨bw, q2, j1, gbl, gb0, j4, _⟩ := h.side hCb.live
  have haw : ia.2.2 = some aw := hCa.wir.trans k1
  have hbw : ib.2.2 = some bw := hCb.wir.trans j1
  have hawbw : aw ≠ bw := fun hh => hne (by rw [haw, hbw, hh])
  rw [haw, hbw] at hq
  simp only [Option.bind_some] at hq
  obtain ⟨e, s1, s2, s3, h1, h2, h3⟩ := splice_total (s := { s with change := .shape (some q) }) (wb := ib.2.2)
    (hL.frame rfl rfl rfl rfl rfl) (h.free.congr rfl rfl rfl rfl rfl) hab ha hb
    ⟨hCa.1, hCa.2, hCa.3, hCa.4⟩ ⟨hCb.1, hCb.2, hCb.3, hCb.4⟩
  obtain ⟨hA, hL3, hF3, hS, pp, fp, ps, V, N, W, vc, rfl, hW, hW0, hW1⟩ :=
    splice_eff h1 h2 h3 (hL.frame rfl rfl rfl rfl rfl) ha hb (h.free.congr (T := True) rfl rfl rfl rfl rfl)
      ⟨hCa.1, hCa.2, hCa.3, hCa.4⟩ ⟨hCb.1, hCb.2, hCb.3, hCb.4⟩
  dsimp only at hW
  rw [haw] at hW0
  rw [hbw] at hW1
  have hfr : e ∉ s.sid.live := hA.fresh
  have hle : ∀ d : HE, d.1 ∈ s.sid.live → d.1 ≠ e := fun d hd hh => hfr (hh ▸ hd)
  -- the wires and the walk along the removed one
  obtain ⟨keep, rm, hk, hr, hkl, hk0, hrl, hr0, hkr, hwalk⟩ : ∃ keep rm, W (e, if s.outer q = aw then false else true) = some keep ∧
      W (e, !(if s.outer q = aw then false else true)) = some rm ∧ keep ∈ s.wid.live ∧ keep ≠ 0 ∧ rm ∈ s.wid.live ∧ rm ≠ 0 ∧
      keep ≠ rm ∧ ∃ l, Path N (e, !(if s.outer q = aw then false else true)) ((e, !(if s.outer q = aw then false else true)) :: l)
        (e, if s.outer q = aw then false else true) ∧ ((e, !(if s.outer q = aw then false else true)) :: l).Nodup ∧
        ∀ c ∈ l, c.1 ∈ s.sid.live ∧ s.wire c = some rm := by
    by_cases ho : s.outer q = aw
    · rw [if_pos ho]
      refine ⟨aw, bw, hW0, hW1, gal, ga0, gbl, gb0, hawbw, ?_⟩
      refine opened h.wires hCb hbw hS.pb hS.e1 (fun c h1 h2 h3 => hS.other c (hle c h2) ?_ h1) hfr
      rintro rfl
      rw [k1] at h3
      exact hawbw (Option.some.inj h3)
    · rw [if_neg ho]
      refine ⟨bw, aw, hW1, hW0, gbl, gb0, gal, ga0, hawbw.symm, ?_⟩
      refine opened h.wires hCa haw hS.pa hS.e0 (fun c h1 h2 h3 => hS.other c (hle c h2) h1 ?_) hfr
      rintro rfl
      rw [j1] at h3
      exact hawbw (Option.some.inj h3).symm
  generalize hside : (if s.outer q = aw then false else true) = side at hk hr hwalk
  obtain ⟨l, hp, hnd, hlw⟩ := hwalk
  have hnl : ∀ d ∈ ((e, !side) :: l : List HE), d.1 ∈ s.sid.append.2.live := by
    intro d hd
    rcases List.mem_cons.1 hd with rfl | hd
    · exact (hA.live e).2 (Or.inr rfl)
    · exact (hA.live d.1).2 (Or.inl (hlw d hd).1)
  have hparr : s.parent rm ≠ none := h.wires.par rm hrl hr0
  obtain ⟨par, hpar, hparl⟩ : ∃ x, (if s.outer q = aw ∨ s.outer q = bw then s.parent keep else some keep) = some x ∧ x ∈ s.wid.live := by
    split
    · obtain ⟨x, hx, hx'⟩ := h.nest.up keep hkl hk0
      exact ⟨x, hx, hx'⟩
    · exact ⟨keep, rfl, hkl⟩
  unfold joinWires
  refine Exists.elim (p := fun r : Id × St K => joinWires a b ia ib s = .ok r) ?_ (fun r hr => ⟨r.1, r.2, hr⟩)
  unfold joinWires
  refine ex_bind (a := ()) (check_ok.2 hne) (ex_bind (need_ok.2 haw) (ex_bind (need_ok.2 hbw) (ex_bind (a := ())
    (check_ok.2 hq) (ex_bind (need_ok.2 k4) (ex_bind h1 (ex_bind h2 (ex_bind h3 ?_)))))))
  dsimp only
  rw [hside]
  refine ex_bind (need_ok.2 hk) (ex_bind (need_ok.2 hr) (ex_bind (a := (e, !side) :: l) ?_ ?_))
  · refine wireSegments_total ?_ hp (by simp) hnd (fun hh => hfr (hlw _ hh).1) hnl hparr
    exact hL3.sids
  obtain ⟨s4, h4⟩ := relabel_total (x := rm) (y := keep) (l := (e, !side) :: l) (s := { s with
      ppoly := pp, fpts := fp, pseg := ps, sid := s.sid.append.2, vtx := V, wire := W, next := N, vec := vc
      table := upd s.table (a, b) (some e), change := .shape (some q)
      outer := if s.outer q = aw ∨ s.outer q = bw then upd s.outer q keep else s.outer }) hnd (by
    intro d hd
    rcases List.mem_cons.1 hd with rfl | hd
    · exact hr
    · obtain ⟨e1, e2⟩ := hlw d hd
      exact (hW d (hle d e1)).trans e2)
  refine ex_bind h4 ?_
  have hu4 : UpTree s4 := h.tree.frame (relabel_same h4).wid (relabel_same h4).par (relabel_same h4).chs
  have hsm := relabel_same h4
  have hcl : ∀ c ∈ s.childs rm, c ∈ s.wid.live ∧ c ≠ 0 := fun c hc => ⟨(h.tree.mem rm hrl c hc).1, (h.tree.mem rm hrl c hc).2.1⟩
  obtain ⟨s5, h5⟩ := UpTree.sets_total (x := par) (l := s.childs rm) (s := { s4 with wire := upd s4.wire (e, false) (some keep) })
    (hu4.frame rfl rfl rfl) (by show ∀ c ∈ s.childs rm, c ∈ s4.wid.live ∧ c ≠ 0; rw [hsm.wid]; exact hcl)
    (by show par ∈ s4.wid.live; rw [hsm.wid]; exact hparl)
  have hu5 := setParents_up (x := par) (l := s.childs rm) (s := { s4 with wire := upd s4.wire (e, false) (some keep) })
    (hu4.frame rfl rfl rfl) (by show ∀ c ∈ s.childs rm, c ∈ s4.wid.live ∧ c ≠ 0; rw [hsm.wid]; exact hcl)
    (by show par ∈ s4.wid.live; rw [hsm.wid]; exact hparl) h5
  obtain ⟨C, h6⟩ := setParents_eq h5
  obtain ⟨rp, hrp, hrpl⟩ := h.nest.up rm hrl hr0
  have hrr : rm ∉ s.childs rm := fun hh => h.nest.self hrl (h.tree.child hrl hh).2
  have hrp5 : s5.parent rm = some rp := by
    rw [h6]
    dsimp only
    rw [if_neg hrr, hsm.par]
    exact hrp
  have hw5 : s5.wid = s.wid := by rw [h6]; exact hsm.wid
  have hmem : rm ∈ s5.childs rp := by
    rcases (hu5.up rm (by rw [hw5]; exact hrl) rp hrp5).2 with hh | hh
    · exact hh
    · exact absurd (hh ▸ hrp) (h.nest.self hrl)
  obtain ⟨m, hm⟩ := Ids.remove_total (m := s5.wid) (i := rm) (by rw [hw5]; exact hrl)
  have hch : s4.childs rm = s.childs rm := by rw [hsm.chs]
  rw [hch, hpar]
  exact ex_bind h5 (ex_bind (need_ok.2 hrp5) (ex_bind (removeSet_ok.2 ⟨hmem, rfl⟩) (ex_bind hm ⟨_, rfl⟩)))

/-! ### Walks and tests of wires -/

omit [Field K] in
theorem Wires.all_total {s : St K} (h : Wires s) (hs : s.sid.Ok) (hr : s.parent 0 = none) {w : Id} (hw : w ∈ s.wid.live) :
    ∃ l, wireAll s w = .ok l := by
  unfold wireAll
  split
  · exact ⟨_, rfl⟩
  · next hp =>
    have h0 : w ≠ 0 := by rintro rfl; exact hp hr
    obtain ⟨d, h1, h2, h3⟩ := h.seg w hw h0
    obtain ⟨l, hl⟩ := h.cyc w hw h0
    obtain ⟨a, ha⟩ := hl.path
    obtain ⟨l', k1, k2, k3⟩ := path_from ha hl.nd ((hl.mem d).2 ⟨h2, h3⟩)
    refine ex_bind (need_ok.2 h1) ⟨_, walkGo_ok k1 (by simp) (List.nodup_cons.1 k3).1 (List.nodup_cons.1 k3).1 ?_⟩
    have := length_le_two_mul k3 (fun c hc => hs.lt _ ((hl.mem c).1 (k2.subset hc)).1)
    unfold fuel
    omega

section
variable [LinearOrder K]

theorem Wires.point_total {s : St K} (h : Wires s) (hs : s.sid.Ok) (hr : s.parent 0 = none) {w : Id} (hw : w ∈ s.wid.live)
    (p : K × K) : ∃ c, containsPoint s w p = .ok c := by
  unfold containsPoint
  split
  · exact ⟨_, rfl⟩
  · obtain ⟨l, hl⟩ := h.all_total hs hr hw
    exact ex_bind hl ⟨_, rfl⟩

theorem Wires.wire_total {g : Geom K} {s : St K} (h : Wires s) (hs : s.sid.Ok) (hr : s.parent 0 = none) {w v : Id} (hw : w ∈ s.wid.live)
    (hv : v ∈ s.wid.live) : ∃ c, containsWire g s w v = .ok c := by
  unfold containsWire
  split
  · exact ⟨_, rfl⟩
  · split
    · exact ⟨_, rfl⟩
    · next hp =>
      obtain ⟨d, h1, _⟩ := h.seg v hv (by rintro rfl; exact hp hr)
      exact ex_bind (need_ok.2 h1) (h.point_total hs hr hw _)

theorem splitPoints_total {q' : Id} {l : List Id} : ∀ {s : St K}, Wires s → s.sid.Ok → s.parent 0 = none → Free True s →
    s.outer q' ∈ s.wid.live → q' ∈ s.qid.live → (∀ p ∈ l, p ∈ s.pid.live) → ∃ s', splitPoints q' l s = .ok s' := by
  induction l with
  | nil => intro s _ _ _ _ _ _ _; exact ⟨s, rfl⟩
  | cons p l ih =>
    intro s hW hs hr hF ho hq hl
    obtain ⟨c, hc⟩ := hW.point_total hs hr ho (s.xy p)
    refine ex_bind hc ?_
    cases c
    · exact ex_bind rfl (ih hW hs hr hF ho hq (fun p hp => hl p (by simp [hp])))
    · obtain ⟨s1, h1⟩ := setPolygon_total (q := q') hF (hl p (by simp))
      have hF1 := (setPolygon_free hF (hl p (by simp)) (fun _ => hq) h1).1
      have h1' := h1
      obtain ⟨pp, fp, rfl⟩ := setPolygon_eq h1
      exact ex_bind h1' (ih (hW.frame rfl rfl rfl rfl rfl rfl) hs hr hF1 ho hq (fun p hp => hl p (by simp [hp])))

theorem splitHoles_total {g : Geom K} {q' : Id} {l : List Id} : ∀ {s : St K}, Wires s → s.sid.Ok → UpTree s →
    s.outer q' ∈ s.wid.live → (∀ c ∈ l, c ∈ s.wid.live ∧ c ≠ 0) → ∃ s', splitHoles g q' l s = .ok s' := by
  induction l with
  | nil => intro s _ _ _ _ _; exact ⟨s, rfl⟩
  | cons c l ih =>
    intro s hW hs hu ho hl
    obtain ⟨hc, hc0⟩ := hl c (by simp)
    obtain ⟨x, hx⟩ := hW.wire_total (g := g) hs hu.top ho hc
    refine ex_bind hx ?_
    cases x
    · exact ex_bind rfl (ih hW hs hu ho (fun p hp => hl p (by simp [hp])))
    · obtain ⟨s1, h1⟩ := hu.set_total (x := some (s.outer q')) hc hc0
      have hu1 := setParent_up hu hc hc0 ho h1
      have h1' : giveHole q' c s = .ok { s1 with wpoly := upd s1.wpoly c (some q') } := bind_ok.2 ⟨_, h1, rfl⟩
      obtain ⟨C, rfl⟩ := setParent_eq h1
      refine ex_bind h1' (ih (hW.frame' rfl rfl rfl rfl rfl (fun w hw => ?_)) hs (hu1.frame rfl rfl rfl) ho
        (fun p hp => hl p (by simp [hp])))
      by_cases hwc : w = c
      · subst hwc; simp [upd]
      · simpa [upd, hwc] using hw

/-- The nesting of a new polygon is found if the wires of the state are right and the split wire is at its polygon. -/
theorem cut_total {g : Geom K} {q q' ow lw : Id} {s : St K} (hW : Wires s) (hs : s.sid.Ok) (hu : UpTree s) (ho : ow ∈ s.wid.live)
    (ho0 : ow ≠ 0) (hl : lw ∈ s.wid.live) (hl0 : lw ≠ 0) (hp : s.outer q = ow ∨ s.parent ow = some (s.outer q)) :
    ∃ s', cut g q q' ow lw s = .ok s' := by
  unfold cut
  split
  · obtain ⟨s1, h1⟩ := hu.set_total (x := s.parent ow) hl hl0
    exact ex_bind h1 ⟨_, rfl⟩
  · next hne =>
    have hp := hp.resolve_left hne
    obtain ⟨inR, hR⟩ := hW.wire_total (g := g) hs hu.top ho hl
    refine ex_bind (a := ()) (check_ok.2 hp) (ex_bind hR ?_)
    have hu' : (if inR then ow else lw) ∈ s.wid.live ∧ (if inR then ow else lw) ≠ 0 := by
      cases inR
      · simpa using ⟨hl, hl0⟩
      · simpa using ⟨ho, ho0⟩
    have hi : (if inR then lw else ow) ∈ s.wid.live ∧ (if inR then lw else ow) ≠ 0 := by
      cases inR
      · simpa using ⟨ho, ho0⟩
      · simpa using ⟨hl, hl0⟩
    have hch : ∀ c ∈ s.childs ow, c ∈ s.wid.live ∧ c ≠ 0 := fun c hc => ⟨(hu.mem ow ho c hc).1, (hu.mem ow ho c hc).2.1⟩
    obtain ⟨s1, h1⟩ := hu.sets_total hch hu'.1
    have hu1 := setParents_up hu hch hu'.1 h1
    have hw1 : s1.wid = s.wid := by
      obtain ⟨C1, rfl⟩ := setParents_eq h1
      rfl
    obtain ⟨x, hx⟩ := Option.ne_none_iff_exists'.1 (hu1.non ow (hw1 ▸ ho) ho0)
    have hxl := (hu1.up ow (hw1 ▸ ho) x hx).1
    refine ex_bind h1 ?_
    dsimp only
    rw [hx]
    obtain ⟨s2, h2⟩ := UpTree.set_total (w := if inR = true then ow else lw) (x := some x) (s := { s1 with
        wpoly := upd (upd s1.wpoly (if inR = true then ow else lw) (some q)) (if inR = true then lw else ow) (some q')
        outer := upd s1.outer q' (if inR = true then lw else ow) }) (hu1.frame rfl rfl rfl) (by rw [hw1]; exact hu'.1) hu'.2
    have hu2 := setParent_up (s := { s1 with
        wpoly := upd (upd s1.wpoly (if inR = true then ow else lw) (some q)) (if inR = true then lw else ow) (some q')
        outer := upd s1.outer q' (if inR = true then lw else ow) }) (hu1.frame rfl rfl rfl) (by rw [hw1]; exact hu'.1) hu'.2 hxl h2
    have hw2 : s2.wid = s.wid := by
      obtain ⟨C1, rfl⟩ := setParent_eq h2
      exact hw1
    obtain ⟨s3, h3⟩ := hu2.set_total (w := if inR = true then lw else ow) (x := some (if inR = true then ow else lw))
      (by rw [hw2]; exact hi.1) hi.2
    exact ex_bind h2 (ex_bind h3 ⟨_, rfl⟩)

theorem splitPoly_rest_total {g : Geom K} {s s1 : St K} {e a b : Id} {ia ib : Ins} {ow lw q q' : Id} {l : List HE}
    (hS : SplitPoly s s1 e a b ia ib ow lw q q' l) (h : Nested s) (hF : Free True s1) (hCa : Corner s a ia) (hCb : Corner s b ib) :
    ∃ r, (cut g q q' ow lw s1 >>= fun s => splitPoints q' (s.fpts q) s >>= fun s => splitHoles g q' (s.childs (s.outer q)) s >>=
      fun s => (.ok (e, s) : Except Err (Id × St K))) = .ok r := by
  obtain ⟨hW1, hp1⟩ := splitPoly_wires h.wires h.inv.wids hS hCa hCb
  obtain ⟨o1, o2, l1, l2, q1, q2, hwl, hql⟩ := hS.lives h hCa
  have hqq : q ≠ q' := fun hh => q2 (hh ▸ q1)
  have hu1 : UpTree s1 := (newWireObj_up h.tree).frame hS.wid (by rw [hS.parent, hS.hlw]; rfl) (by rw [hS.childs, hS.hlw]; rfl)
  have hoq : s1.outer q = s.outer q := by rw [hS.outer]; simp only [upd, Function.update_of_ne hqq]
  have hsp : s1.parent ow = s.parent ow := by rw [hS.parent]; simp [upd, Function.update_of_ne hS.ne]
  have hol := (hwl ow).2 (Or.inl o1)
  have hll := (hwl lw).2 (Or.inr rfl)
  obtain ⟨s2, h2⟩ := cut_total (g := g) (q := q) (q' := q') hW1 hS.links.sids hu1 hol o2 hll l2 (by
    obtain ⟨x, e1, e2, e3⟩ := h.nest.pols ow o1
    rw [hS.poly] at e2
    cases e2
    rw [hoq, hsp]
    exact e3)
  refine ex_bind h2 ?_
  have hu2 := cut_up h2 hu1 hll l2 hol o2
  obtain ⟨_, hn2, _⟩ := cut_nested hS h hW1 hCa h2
  have hpl := cut_le h2 hp1
  have h4 : ∃ P C Q O c, s2 = { s1 with parent := P, childs := C, wpoly := Q, outer := O, change := c } := by
    unfold cut at h2
    split at h2
    · obtain ⟨C, rfl⟩ := cutOuter_eq h2
      exact ⟨_, _, _, _, _, rfl⟩
    · obtain ⟨iw, uw, C, inR, _, _, _, rfl⟩ := cutHole_eq h2
      exact ⟨_, _, _, _, _, rfl⟩
  obtain ⟨P, C, Q, O, c, rfl⟩ := h4
  have hW2 := hW1.frame' (s' := { s1 with parent := P, childs := C, wpoly := Q, outer := O, change := c }) rfl rfl rfl rfl rfl hpl
  have hF2 : Free True { s1 with parent := P, childs := C, wpoly := Q, outer := O, change := c } := hF.congr rfl rfl rfl rfl rfl
  have hq'l : q' ∈ s1.qid.live := (hql q').2 (Or.inr rfl)
  have hql' : q ∈ s1.qid.live := (hql q).2 (Or.inl q1)
  obtain ⟨s3, h3⟩ := splitPoints_total (q' := q') (l := s1.fpts q) hW2 hS.links.sids hu2.top hF2 (hn2.outs q' hq'l).1 hq'l
    (fun p hp => (hF.mem q p hp).1)
  refine ex_bind h3 ?_
  obtain ⟨pp, fp, rfl, _⟩ := splitPoints_eq (T := True) hF2 (fun p hp => hF.pseg hp) (fun _ => hq'l) h3
  have hol2 := (hn2.outs q hql').1
  obtain ⟨s4, h4⟩ := splitHoles_total (g := g) (q' := q') (l := C (O q))
    (s := { s1 with parent := P, childs := C, wpoly := Q, outer := O, change := c, ppoly := pp, fpts := fp })
    (hW2.frame rfl rfl rfl rfl rfl rfl) hS.links.sids (hu2.frame rfl rfl rfl) (hn2.outs q' hq'l).1
    (fun x hx => ⟨(hu2.mem (O q) hol2 x hx).1, (hu2.mem (O q) hol2 x hx).2.1⟩)
  exact ex_bind h4 ⟨_, rfl⟩

/-- `_split_poly` returns for two corners of one wire. -/
theorem splitPoly_total {g : Geom K} {s : St K} (h : Nested s) {a b : Id} {ia ib : Ins} (hab : a ≠ b) (ha : a ∈ s.pid.live)
    (hb : b ∈ s.pid.live) (hCa : Corner s a ia) (hCb : Corner s b ib) (heq : ia.2.2 = ib.2.2) :
    ∃ e s', splitPoly g a b ia ib s = .ok (e, s') := by
  have hL := h.inv.links
  obtain ⟨ow, q, k1, gal, ga0, k4, k5⟩ := h.side hCa.live
  have how : ia.2.2 = some ow := hCa.wir.trans k1
  have gbw : s.wire ib.1 = some ow := by rw [← how, heq]; exact hCb.wir.symm
  obtain ⟨w1, w2, _⟩ := Ids.append_ok h.tree.wids
  have hne : ow ≠ s.wid.append.1 := fun hh => w1 (hh ▸ gal)
  obtain ⟨e, s1, s2, s3, h1, h2, h3⟩ := splice_total (s := (newWireObj s).2) (wb := some (newWireObj s).1)
    (hL.frame rfl rfl rfl rfl rfl) (h.free.congr rfl rfl rfl rfl rfl) hab ha hb
    ⟨hCa.1, hCa.2, hCa.3, hCa.4⟩ ⟨hCb.1, hCb.2, hCb.3, hCb.4⟩
  obtain ⟨hA, hL3, hF3, hS, pp, fp, ps, V, N, W, vc, rfl, hW, hW0, hW1⟩ :=
    splice_eff h1 h2 h3 (hL.frame rfl rfl rfl rfl rfl) ha hb (h.free.congr (T := True) rfl rfl rfl rfl rfl)
      ⟨hCa.1, hCa.2, hCa.3, hCa.4⟩ ⟨hCb.1, hCb.2, hCb.3, hCb.4⟩
  rw [how] at hW0
  have hfr : e ∉ s.sid.live := hA.fresh
  have hle : ∀ d : HE, d.1 ∈ s.sid.live → d.1 ≠ e := fun d hd hh => hfr (hh ▸ hd)
  -- the walk
  obtain ⟨l, hp, hl0, hnd, hlw⟩ : ∃ l, Path N ib.2.1 l (e, true) ∧ l ≠ [] ∧ l.Nodup ∧ ∀ c ∈ l, c.1 ∈ s.sid.live ∧ s.wire c = some ow := by
    obtain ⟨lo, hlo⟩ := h.wires.cyc ow gal ga0
    obtain ⟨m, a1, a2, a3⟩ := hlo.open_ ((hlo.mem _).2 ⟨hCb.live, gbw⟩) hCb.nxt
    have a4 : ∀ d, d ∈ m ++ [ib.1] ↔ d.1 ∈ s.sid.live ∧ s.wire d = some ow := fun d => (a3 d).trans (hlo.mem d)
    have hia : ia.1 ∈ m := by
      have := (a4 ia.1).2 ⟨hCa.live, k1⟩
      rw [List.mem_append, List.mem_singleton] at this
      exact this.resolve_right hS.nab
    obtain ⟨u, v, rfl⟩ := List.append_of_mem hia
    rw [path_append] at a1
    obtain ⟨c, p1, p2⟩ := a1
    obtain rfl := path_head p2
    rw [List.append_assoc, List.nodup_append] at a2
    obtain ⟨n1, n2, n3⟩ := a2
    have hu1 : ia.1 ∉ u := fun hh => n3 _ hh ia.1 (by simp) rfl
    have hu2 : ib.1 ∉ u := fun hh => n3 _ hh ib.1 (by simp) rfl
    have hlv : ∀ c ∈ u ++ [ia.1], c.1 ∈ s.sid.live ∧ s.wire c = some ow := fun c hc => (a4 c).1 (by
      rcases List.mem_append.1 hc with hc | hc
      · simp [hc]
      · rw [List.mem_singleton.1 hc]; simp)
    refine ⟨u ++ [ia.1], path_snoc (path_congr (fun d hd => ?_) p1) hS.pa, by simp, ?_, hlv⟩
    · exact hS.other d (hle d (hlv d (by simp [hd])).1) (fun hh => hu1 (hh ▸ hd)) (fun hh => hu2 (hh ▸ hd))
    · rw [List.nodup_append]
      refine ⟨n1, by simp, ?_⟩
      intro x hx y hy
      rw [List.mem_singleton.1 hy]
      exact fun hh => hu1 (hh ▸ hx)
  have hel : (e, true) ∉ l := fun hh => hfr (hlw _ hh).1
  have hlive : ∀ d ∈ l, d.1 ∈ s.sid.append.2.live := fun d hd => (hA.live d.1).2 (Or.inl (hlw d hd).1)
  have hparo : s.parent ow ≠ none := h.wires.par ow gal ga0
  obtain ⟨s4, h4⟩ := relabel_total (x := ow) (y := (newWireObj s).1) (l := l) (s := { (newWireObj s).2 with
      ppoly := pp, fpts := fp, pseg := ps, sid := s.sid.append.2, vtx := V, wire := W, next := N, vec := vc
      table := upd s.table (a, b) (some e) }) hnd (fun d hd => (hW d (hle d (hlw d hd).1)).trans (hlw d hd).2)
  have h4' := h4
  obtain ⟨rfl, hw⟩ := relabel_eq hnd h4
  -- the state before the nesting is found
  have hSP : SplitPoly s { (newWireObj s).2 with
      ppoly := pp, pseg := ps, sid := s.sid.append.2, vtx := V, next := N, vec := vc
      wire := fun d => if d ∈ l then some (newWireObj s).1 else W d
      table := upd s.table (a, b) (some e)
      wseg := upd (upd (newWireObj s).2.wseg s.wid.append.1 (some (e, true))) ow (some (e, false))
      qid := s.qid.append.2
      outer := upd s.outer s.qid.append.1 s.wid.append.1
      fpts := upd fp s.qid.append.1 []
      wpoly := upd (newWireObj s).2.wpoly s.wid.append.1 (some s.qid.append.1) } e a b ia ib ow s.wid.append.1 q s.qid.append.1 l := by
    constructor
    · exact how
    · rw [← heq]; exact how
    · rfl
    · rfl
    · exact hne
    · exact k4
    · refine AddSeg.frame (hA.base (s := s) rfl rfl rfl rfl rfl rfl) ?_ ?_ ?_ ?_ ?_ ?_ <;> rfl
    · exact hL3.frame rfl rfl rfl rfl rfl
    · exact ⟨hS.1, hS.2, hS.3, hS.4, hS.5, hS.6, hS.7, hS.8⟩
    · exact hnd
    · exact Or.inr ⟨hparo, hp, hl0, fun hh => hel (List.mem_of_mem_tail hh)⟩
    · intro d hd hde
      exact (hlw d hd).2
    · exact hel
    · intro d hd
      simp only [hW d hd]
      rfl
    · simp only [hW0]
      rfl
    · simp only [hW1, ite_self]
      rfl
    · rfl
    · rfl
    · rfl
    · exact Function.update_idem _ _ _
    · rfl
    · rfl
    · simp only [newWireObj, upd]
      rw [Function.update_idem]
  have hF5 : Free True { (newWireObj s).2 with
      ppoly := pp, pseg := ps, sid := s.sid.append.2, vtx := V, next := N, vec := vc
      wire := fun d => if d ∈ l then some (newWireObj s).1 else W d
      table := upd s.table (a, b) (some e)
      wseg := upd (upd (newWireObj s).2.wseg s.wid.append.1 (some (e, true))) ow (some (e, false))
      qid := s.qid.append.2
      outer := upd s.outer s.qid.append.1 s.wid.append.1
      fpts := upd fp s.qid.append.1 []
      wpoly := upd (newWireObj s).2.wpoly s.wid.append.1 (some s.qid.append.1) } := by
    refine ⟨fun x => ?_, fun x p hp => ?_, hF3.seg, fun hT p hp x hx => ?_⟩
    · by_cases hx : x = s.qid.append.1
      · subst hx; simp [upd]
      · simpa [upd, hx] using hF3.nd x
    · by_cases hx : x = s.qid.append.1
      · subst hx; simp [upd] at hp
      · exact hF3.mem x p (by simpa [upd, hx] using hp)
    · obtain ⟨h9, h10⟩ := hF3.full hT p hp x hx
      obtain ⟨h11, h12, _⟩ := Ids.append_ok h.inv.qids
      have hxq : x ≠ s.qid.append.1 := fun h => h11 (h ▸ h9)
      refine ⟨?_, by simpa [upd, hxq] using h10⟩
      show x ∈ s.qid.append.2.live
      rw [h12]
      exact List.mem_append_left _ h9
  refine Exists.elim (p := fun r : Id × St K => splitPoly g a b ia ib s = .ok r) ?_ (fun r hr => ⟨r.1, r.2, hr⟩)
  unfold splitPoly
  refine ex_bind (a := ()) (check_ok.2 heq) (ex_bind (need_ok.2 how) ?_)
  dsimp only
  refine ex_bind h1 (ex_bind h2 (ex_bind h3 (ex_bind (need_ok.2 hS.e1) (ex_bind (a := l) ?_ (ex_bind h4' (ex_bind (a := q) (need_ok.2 ?_) ?_))))))
  · refine wireSegments_total ?_ hp hl0 hnd (fun hh => hel (List.mem_of_mem_tail hh)) hlive ?_
    · exact hL3.sids
    · show upd s.parent s.wid.append.1 _ ow ≠ none
      simpa only [upd, Function.update_of_ne hne] using hparo
  · show upd s.wpoly s.wid.append.1 _ ow = some q
    simpa only [upd, Function.update_of_ne hne] using k4
  exact splitPoly_rest_total hSP h hF5 hCa hCb

end

end Verif.Decomp
