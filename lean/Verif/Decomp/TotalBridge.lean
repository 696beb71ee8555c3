import Verif.Decomp.TotalDel
import Verif.Decomp.Bridge

/-! The removal of a segment that holds the parts of a hole together returns. -/

namespace Verif.Decomp

variable {K : Type} [Field K]

/-- `_split_wire` returns if the nesting of the parts does. -/
theorem splitWith_total {s : St K} (h : Nested s) {e : Id} (he : e ∈ s.sid.live) (hn : ∀ v, s.next (e, v) ≠ some (e, !v))
    (hd : isDendrite s e) {aw q : Id} (haw : s.wire (e, true) = some aw) (hq : s.wpoly aw = some q) :
    ∃ t : St K, t.parent = (newWireObj s).2.parent ∧ t.childs = (newWireObj s).2.childs ∧ t.outer = s.outer ∧
      t.wid = (newWireObj s).2.wid ∧ t.sid = s.sid ∧
      ∀ f : Id → Id → Id → St K → Except Err (St K),
        (∃ P C O, f q aw (newWireObj s).1 t = .ok { t with parent := P, childs := C, outer := O }) →
        ∃ s', splitWith f e s = .ok s' ∧ s'.next = t.next ∧ s'.wseg = t.wseg := by
  have hL := h.inv.links
  obtain ⟨k1, k2, _⟩ := Ids.append_ok h.inv.wids
  have hql : q ∈ s.qid.live := h.polyLive (d := (e, true)) he haw hq
  obtain ⟨w, w1, hal, ha0⟩ := h.wires.lab (e, true) he
  rw [haw] at w1
  cases w1
  have hab : aw ≠ (newWireObj s).1 := fun hh => k1 (hh ▸ hal)
  have hfw : s.wire (e, false) = some aw := hd.symm.trans haw
  obtain ⟨cl, hcl⟩ := h.wires.cyc aw hal ha0
  obtain ⟨a, ha⟩ := hcl.path
  obtain ⟨l', p1, p2, p3⟩ := path_from ha hcl.nd ((hcl.mem (e, true)).2 ⟨he, haw⟩)
  obtain ⟨n1, n2⟩ := List.nodup_cons.1 p3
  have hfm : (e, false) ∈ l' := by
    have := p2.symm.subset ((hcl.mem (e, false)).2 ⟨he, hfw⟩)
    simpa using this
  obtain ⟨_, bn, hbn, p4⟩ := p1
  obtain ⟨l, l2, rfl⟩ := List.append_of_mem hfm
  rw [path_append] at p4
  obtain ⟨c, p5, p6⟩ := p4
  obtain rfl : c = (e, false) := p6.1
  have hl0 : l ≠ [] := by
    rintro rfl
    have : bn = (e, false) := p5
    exact hn true (by rw [hbn, this]; rfl)
  obtain ⟨m1, _, m2⟩ := List.nodup_append.1 n2
  have hlf : (e, false) ∉ l := fun hh => m2 _ hh _ (by simp) rfl
  have hlt : (e, true) ∉ l := fun hh => n1 (by simp [hh])
  have hlm : ∀ d ∈ l, d.1 ∈ s.sid.live ∧ s.wire d = some aw := fun d hdl => (hcl.mem d).1 (p2.subset (by simp [hdl]))
  have hel : ∀ v, (e, v) ∉ l := by intro v; cases v <;> assumption
  obtain ⟨kf, f1, f2, f3, _⟩ := hL.next_ok (d := (e, false)) he (by simp)
  have hkf : kf.1 ≠ e := by
    intro hh
    rcases eq_or_flip (h := kf) (k := ((e, false) : HE)) hh with rfl | rfl
    · exact hL.flip_ne (d := (e, false)) he f3
    · exact hn false f1
  -- the walk and the labels
  have hseg : wireSegments (newWireObj s).2 aw bn (e, false) = .ok l := by
    refine wireSegments_total (s := (newWireObj s).2) hL.sids p5 hl0 m1 (fun hh => hlf (List.mem_of_mem_tail hh)) (fun d hd => (hlm d hd).1) ?_
    rw [newWireObj_parent, if_neg hab]
    exact h.wires.par aw hal ha0
  obtain ⟨s1, h1⟩ := relabel_total (x := aw) (y := (newWireObj s).1) (l := l) (s := (newWireObj s).2) m1 (fun d hd => (hlm d hd).2)
  have h1' := h1
  obtain ⟨rfl, _⟩ := relabel_eq m1 h1
  generalize hu : (({ (newWireObj s).2 with wire := fun d => if d ∈ l then some (newWireObj s).1 else (newWireObj s).2.wire d } : St K)) = u at h1'
  have hwire : ∀ v, u.wire (e, v) = some aw := by
    intro v
    rw [← hu]
    change (if (e, v) ∈ l then _ else s.wire (e, v)) = _
    rw [if_neg (hel v)]
    cases v
    · exact hfw
    · exact haw
  have hunext : u.next = s.next := by rw [← hu]; rfl
  have huwp : u.wpoly aw = some q := by
    rw [← hu]
    change upd s.wpoly (newWireObj s).1 none aw = _
    rw [upd, Function.update_of_ne hab]
    exact hq
  have hws : ∀ v, upd (upd u.wseg aw (u.next (e, false))) (newWireObj s).1 (some bn) aw ≠ some (e, v) := by
    intro v
    rw [upd, Function.update_of_ne hab, upd, Function.update_self, hunext, f1]
    intro hh
    exact hkf (congrArg Prod.fst (Option.some.inj hh))
  have h2 : disconnectWires e { u with wseg := upd (upd u.wseg aw (u.next (e, false))) (newWireObj s).1 (some bn) } =
      .ok { u with wseg := upd (upd u.wseg aw (u.next (e, false))) (newWireObj s).1 (some bn) } := by
    have key : ∀ v, disconnectWire (e, v) { u with wseg := upd (upd u.wseg aw (u.next (e, false))) (newWireObj s).1 (some bn) } =
        .ok { u with wseg := upd (upd u.wseg aw (u.next (e, false))) (newWireObj s).1 (some bn) } := by
      intro v
      unfold disconnectWire
      refine bind_ok.2 ⟨aw, need_ok.2 (hwire v), ?_⟩
      rw [if_neg (hws v)]
    exact bind_ok.2 ⟨_, key true, key false⟩
  -- the ends
  have hLu : Links ({ u with wseg := upd (upd u.wseg aw (u.next (e, false))) (newWireObj s).1 (some bn) } : St K) ∅ ∅ := by
    rw [← hu]
    exact hL.frame rfl rfl rfl rfl rfl
  have hFu : Free True ({ u with wseg := upd (upd u.wseg aw (u.next (e, false))) (newWireObj s).1 (some bn) } : St K) := by
    rw [← hu]
    exact h.free.congr rfl rfl rfl rfl rfl
  have heu : e ∈ u.sid.live := by rw [← hu]; exact he
  have hPu : PolyLive ({ u with wseg := upd (upd u.wseg aw (u.next (e, false))) (newWireObj s).1 (some bn) } : St K) e := by
    intro w x h9 h10
    have h9' := (hwire true).symm.trans h9
    cases h9'
    have h10' := huwp.symm.trans h10
    cases h10'
    rw [← hu]
    exact hql
  have hn0 : u.next (e, false) ≠ some (e, true) := by rw [hunext]; exact hn false
  have hn1 : u.next (e, true) ≠ some (e, false) := by rw [hunext]; exact hn true
  obtain ⟨s3, s4, h3, h4⟩ := unlink_total hLu heu hFu hPu hn0 hn1
  obtain ⟨r0, r1, ps, N, e4, hU, hL4, hF4, hE0, hE1, hps, _⟩ := unlink_eff (T := True) h3 h4 hLu heu hFu (fun _ => hPu) hn0 hn1
  refine ⟨{ s4 with wpoly := upd s4.wpoly (newWireObj s).1 (some q) }, ?_, ?_, ?_, ?_, ?_, ?_⟩
  · rw [e4, ← hu]
  · rw [e4, ← hu]
  · rw [e4, ← hu]; rfl
  · rw [e4, ← hu]
  · rw [e4, ← hu]; rfl
  rintro f ⟨P, C, O, hf⟩
  have hwp4 : s4.wpoly = u.wpoly := by rw [e4]
  have hw4 : s4.wire = u.wire := by rw [e4]
  have hq4 : s4.qid = u.qid := by rw [e4]
  have hpoly : upd s4.wpoly (newWireObj s).1 (some q) aw = some q := by
    rw [upd, Function.update_of_ne hab, hwp4]
    exact huwp
  have he4 : e ∈ s4.sid.live := by rw [e4]; exact heu
  have hps4 : ∀ v, s4.pseg (s4.vtx (e, v)) ≠ none := by
    intro v
    have := hps v
    rw [e4]
    exact this
  obtain ⟨s5, h5⟩ := destroySegment_total (X := {d | d.1 = e}) (Y := ∅) (s := { s4 with
      wpoly := upd s4.wpoly (newWireObj s).1 (some q), parent := P, childs := C, outer := O, change := .shape (some q) })
    (hL4.frame rfl rfl rfl rfl rfl) (hF4.congr rfl rfl rfl rfl rfl) he4 (hE0.frame rfl rfl rfl) (hE1.frame rfl rfl rfl)
    ⟨show s4.wire (e, true) = s4.wire (e, false) by rw [hw4, hwire, hwire], q,
      bind_ok.2 ⟨aw, need_ok.2 (show s4.wire (e, true) = some aw by rw [hw4]; exact hwire true), need_ok.2 hpoly⟩⟩ (by
      intro w x h9 h10
      have h9' : s4.wire (e, true) = some w := h9
      rw [hw4, hwire] at h9'
      cases h9'
      have h10' := hpoly.symm.trans h10
      cases h10'
      change q ∈ s4.qid.live
      rw [hq4, ← hu]
      exact hql)
  obtain ⟨_, _, m, tb, e5⟩ := destroy_keep h5 (hL4.frame rfl rfl rfl rfl rfl) he4 (hE0.frame rfl rfl rfl) (hE1.frame rfl rfl rfl) hps4
  refine ⟨s5, ?_, by rw [e5], by rw [e5]⟩
  unfold splitWith
  exact bind_ok.2 ⟨(), check_ok.2 hd, bind_ok.2 ⟨aw, need_ok.2 haw, bind_ok.2 ⟨q, need_ok.2 hq, bind_ok.2 ⟨bn, need_ok.2 hbn,
    bind_ok.2 ⟨l, hseg, bind_ok.2 ⟨u, h1', bind_ok.2 ⟨_, h2, bind_ok.2 ⟨s3, h3, bind_ok.2 ⟨s4, h4, bind_ok.2 ⟨_, hf, h5⟩⟩⟩⟩⟩⟩⟩⟩⟩⟩

variable [LinearOrder K]

/-- `contains_wire` returns for wires with closed walks. -/
theorem containsWire_total {g : Geom K} {s t : St K} (hW : Wires s) (t1 : t.next = s.next) (t2 : t.wseg = s.wseg)
    (t3 : ∀ i ∈ s.sid.live, i < t.sid.nxt) {w c : Id} (hw : w ∈ s.wid.live) (h0 : w ≠ 0) (hc : c ∈ s.wid.live) (hc0 : c ≠ 0) :
    ∃ b, containsWire g t w c = .ok b := by
  unfold containsWire
  split
  · exact ⟨_, rfl⟩
  next hp =>
  split
  · exact ⟨_, rfl⟩
  obtain ⟨d, hd, _⟩ := hW.seg c hc hc0
  refine ex_bind (need_ok.2 (by rw [t2]; exact hd)) ?_
  unfold containsPoint
  rw [if_neg hp]
  obtain ⟨l, hl, _⟩ := hW.all_of hw h0 t1 t2 t3 hp
  exact ex_bind hl ⟨_, rfl⟩

theorem spread_total {g : Geom K} {s : St K} (hW : Wires s) {aw bw : Id} (ha : aw ∈ s.wid.live) (ha0 : aw ≠ 0) (hb : bw ∈ s.wid.live)
    {l : List Id} : ∀ {t : St K}, t.next = s.next → t.wseg = s.wseg → (∀ i ∈ s.sid.live, i < t.sid.nxt) → UpTree t → t.wid = s.wid →
    (∀ c ∈ l, c ∈ s.wid.live ∧ c ≠ 0) → ∃ t', spread g aw bw l t = .ok t' := by
  induction l with
  | nil => intro t _ _ _ _ _ _; exact ⟨t, rfl⟩
  | cons c l ih =>
    intro t t1 t2 t3 hT tw hl
    obtain ⟨hc, hc0⟩ := hl c (by simp)
    obtain ⟨b, hb'⟩ := containsWire_total (g := g) hW t1 t2 t3 ha ha0 hc hc0
    obtain ⟨s1, h1⟩ := hT.set_total (x := some (if b = true then aw else bw)) (tw ▸ hc) hc0
    have hu := setParent_up hT (tw ▸ hc) hc0 (by split <;> rw [tw] <;> assumption) h1
    have h1' := h1
    obtain ⟨C, rfl⟩ := setParent_eq h1
    exact ex_bind hb' (ex_bind h1' (ih t1 t2 t3 hu tw fun c hc => hl c (by simp [hc])))

/-- `_split_wire` returns for the wire of a hole. -/
theorem splitWire_total {g : Geom K} {s : St K} (h : Nested s) {e : Id} (he : e ∈ s.sid.live) (hn : ∀ v, s.next (e, v) ≠ some (e, !v))
    (hd : isDendrite s e) (ho : ∀ q ∈ s.qid.live, s.wire (e, true) ≠ some (s.outer q)) : ∃ s', splitWire g e s = .ok s' := by
  obtain ⟨aw, q, haw, hal, ha0, hq, hql⟩ := h.side (d := (e, true)) he
  obtain ⟨t, t1, t2, t3, t4, t5, hf⟩ := splitWith_total h he hn hd haw hq
  obtain ⟨s0, hs0, n1, n2⟩ := hf (fun _ _ _ t => .ok t) ⟨t.parent, t.childs, t.outer, rfl⟩
  obtain ⟨_, aw', bw, q', l, bn, r0, r1, hS⟩ := splitWith_eff (T := True) (f := fun _ _ _ t => .ok t) (fun q aw bw t t' ht => by
    cases ht
    refine ⟨⟨t.parent, t.childs, t.outer, rfl, ?_⟩, fun _ _ h => h⟩
    by_cases hh : t.outer q = aw
    · exact Or.inl ⟨hh, aw, Or.inl rfl, by rw [upd, ← hh, Function.update_eq_self]⟩
    · exact Or.inr ⟨hh, rfl⟩) hs0 h.inv.links he h.free (fun _ w q hw hq => h.polyLive (d := (e, true)) he hw hq) (hn false) (hn true)
  have hW := splitWire_wires h.wires h.inv.wids hS hn
  have e1 := hS.hw true
  rw [haw] at e1
  cases e1
  have hbw := hS.hbw
  obtain ⟨k1, k2, _⟩ := Ids.append_ok h.inv.wids
  have hml : ∀ w, w ∈ s0.wid.live ↔ w ∈ s.wid.live ∨ w = bw := by intro w; rw [hS.wid, k2, hbw]; simp
  have htw : t.wid = s0.wid := by rw [t4, hS.wid]; rfl
  have hsid : ∀ i ∈ s0.sid.live, i < t.sid.nxt := by
    intro i hi
    rw [t5]
    exact h.inv.links.sids.lt i ((hS.del.live i).1 hi).2
  have hb0 : bw ≠ 0 := fun hh => k1 (hbw ▸ hh ▸ h.nest.w0)
  have hat : aw ∈ t.wid.live := by rw [htw]; exact (hml _).2 (Or.inl hal)
  have hbt : bw ∈ t.wid.live := by rw [htw]; exact (hml _).2 (Or.inr rfl)
  have hT : UpTree t := (newWireObj_up h.tree).frame t4 t1 t2
  obtain ⟨p0, hp0, hp0l⟩ := h.nest.up aw hal ha0
  have hab : aw ≠ bw := fun hh => k1 (hbw ▸ hh ▸ hal)
  have hpt : t.parent aw = some p0 := by
    rw [t1, newWireObj_parent, if_neg]
    · exact hp0
    · exact fun hh => hab (hh.trans hbw.symm)
  have hp0t : p0 ∈ t.wid.live := by rw [htw]; exact (hml _).2 (Or.inl hp0l)
  have hnest : ∃ t', nest g q aw bw t = .ok t' := by
    unfold nest
    rw [if_neg (by rw [t3]; exact fun hh => ho q hql (by rw [haw, hh]))]
    unfold nestHole
    dsimp only
    rw [hpt]
    obtain ⟨s1, h1⟩ := hT.set_total (x := some p0) hat ha0
    have hT1 := setParent_up hT hat ha0 hp0t h1
    have h1' := h1
    obtain ⟨C1, rfl⟩ := setParent_eq h1
    obtain ⟨s2, h2⟩ := hT1.set_total (x := some p0) hbt hb0
    have hT2 := setParent_up hT1 hbt hb0 hp0t h2
    have h2' := h2
    obtain ⟨C2, rfl⟩ := setParent_eq h2
    refine ex_bind h1' (ex_bind h2' ?_)
    refine spread_total (s := s0) hW ((hml _).2 (Or.inl hal)) ha0 ((hml _).2 (Or.inr rfl)) n1.symm n2.symm hsid hT2 htw fun c hc => ?_
    have := hT2.mem aw hat c hc
    exact ⟨htw ▸ this.1, this.2.1⟩
  obtain ⟨t', ht'⟩ := hnest
  obtain ⟨P, C, O, e', _⟩ := nest_eq ht'
  obtain ⟨s', hs', _⟩ := hf (nest g) ⟨P, C, O, by rw [← e', show (newWireObj s).1 = bw from hbw.symm]; exact ht'⟩
  exact ⟨s', (splitWire_with g e s).trans hs'⟩

/-- `delete_segment` returns if the segment has a free end, two polygons, or the wire of a hole on both sides. -/
theorem deleteSegment_returns {g : Geom K} {s : St K} (h : Nested s) {e : Id} (he : e ∈ s.sid.live)
    (hb : s.wire (e, true) = s.wire (e, false) → (∃ v, s.next (e, v) = some (e, !v)) ∨ ∀ q ∈ s.qid.live, s.wire (e, true) ≠ some (s.outer q)) :
    ∃ s', deleteSegment g e s = .ok s' := by
  by_cases hk : s.wire (e, true) = s.wire (e, false) → ∃ v, s.next (e, v) = some (e, !v)
  · exact deleteSegment_total h he hk
  push Not at hk
  obtain ⟨hd, hn⟩ := hk
  have ho := (hb hd).resolve_left fun ⟨v, hv⟩ => hn v hv
  have h0 := h.quiet
  unfold deleteSegment
  dsimp only
  rw [if_neg fun hh => hn true hh.1, if_neg (show ¬ s.next (e, true) = some (e, false) from hn true),
    if_neg (show ¬ s.next (e, false) = some (e, true) from hn false), if_pos (show isDendrite ({ s with change := .none } : St K) e from hd)]
  exact splitWire_total h0 he hn hd ho

end Verif.Decomp
