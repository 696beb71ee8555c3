import Verif.Decomp.TotalDel

/-! `join_segments`, `remove_free_point` and `move` return for valid calls. -/

namespace Verif.Decomp

variable {K : Type}

theorem removeFreePoint_total {p : Id} {s : St K} (hF : Free True s) (hp : p ∈ s.pid.live) (hf : s.pseg p = none) :
    ∃ s', removeFreePoint p s = .ok s' := by
  have h1 := (hF.seg p hp).1 hf
  obtain ⟨q, hq⟩ := Option.ne_none_iff_exists'.1 h1
  obtain ⟨m, hm⟩ := Ids.remove_total hp
  unfold removeFreePoint
  exact ex_bind (a := ()) (check_ok.2 h1) (ex_bind (need_ok.2 hq) (ex_bind (a := ()) (check_ok.2 hf)
    (ex_bind (removeSet_ok.2 ⟨(hF.full trivial p hp q hq).2, rfl⟩) (ex_bind hm ⟨_, rfl⟩))))

/-- `_destroy_segment` returns if other segments are known at both ends. -/
theorem destroySegment_other {e : Id} {s : St K} (he : e ∈ s.sid.live) (hne : s.vtx (e, false) ≠ s.vtx (e, true))
    (hk : ∀ v, ∃ k : HE, s.pseg (s.vtx (e, v)) = some k ∧ k.1 ≠ e) : ∃ s', destroySegment e s = .ok s' := by
  have key : ∀ (t : St K) (v : Bool) (k : HE), t.pseg (t.vtx (e, v)) = some k → k.1 ≠ e →
      rmSegment (e, v) t = .ok { t with pseg := upd t.pseg (t.vtx (e, v)) (some k) } := by
    intro t v k h1 h2
    unfold rmSegment otherAt
    simp only [h1, fuel]
    unfold firstOther
    simp only [h2, ne_eq, not_false_eq_true, if_true]
    rfl
  obtain ⟨k0, a0, c0⟩ := hk false
  obtain ⟨k1, a1, c1⟩ := hk true
  obtain ⟨m, hm⟩ := Ids.remove_total he
  unfold destroySegment
  refine ex_bind (key s false k0 a0 c0) (ex_bind (key _ true k1 ?_ c1) (ex_bind hm ⟨_, rfl⟩))
  simp only [upd, Function.update_of_ne hne.symm]
  exact a1

variable [Field K]

/-- `Point.move` returns. -/
theorem movePoint_total {p : Id} {d : K × K} {s : St K} (hL : Links s ∅ ∅) (hp : p ∈ s.pid.live) : ∃ s', movePoint p d s = .ok s' := by
  unfold movePoint
  dsimp only
  cases hk : s.pseg p with
  | none => exact ⟨_, rfl⟩
  | some k =>
    obtain ⟨l, hr, hps⟩ := hL.ring p hp
    have hk' : k ∈ l := by
      rcases (hps (by simp)).som k hk with h1 | ⟨_, h1, _⟩
      · exact h1
      · simp at h1
    obtain ⟨l', h1, _⟩ := around_ring (s := { s with xy := upd s.xy p ((s.xy p).1 + d.1, (s.xy p).2 + d.2) }) hL.sids
      (hr.congr (fun _ => Iff.rfl) (fun _ _ => rfl)) hk'
    exact ex_bind h1 ⟨_, rfl⟩

omit [Field K] in
/-- The order of the two segments at a point that has no others. -/
theorem Links.two_ends {s : St K} (hL : Links s ∅ ∅) {x y : HE} (hx : x.1 ∈ s.sid.live) (hy : y.1 ∈ s.sid.live)
    (hv : s.vtx (flip y) = s.vtx x) (hne : x ≠ flip y)
    (hd : ∀ d : HE, d.1 ∈ s.sid.live → s.vtx d = s.vtx x → d = x ∨ d = flip y) :
    s.next x = some y ∧ s.next (flip y) = some (flip x) := by
  obtain ⟨l, hr, _⟩ := hL.ring (s.vtx x) (hL.vlive x hx)
  obtain ⟨l', p1, p2, p3⟩ := hr.from ((hr.mem x).2 ⟨hx, rfl, by simp⟩)
  have hmem : ∀ d ∈ x :: l', d = x ∨ d = flip y := fun d hdm =>
    have := (hr.mem d).1 (p2.mem_iff.1 hdm)
    hd d this.1 this.2.1
  have hym : flip y ∈ x :: l' := p2.mem_iff.2 ((hr.mem _).2 ⟨hy, hv, by simp⟩)
  have hl : l' = [flip y] := by
    have n1 := List.nodup_cons.1 p3
    have h1 : flip y ∈ l' := (List.mem_cons.1 hym).resolve_left hne.symm
    have h2 : ∀ d ∈ l', d = flip y := fun d hdm =>
      (hmem d (List.mem_cons_of_mem _ hdm)).resolve_left (fun h => n1.1 (h ▸ hdm))
    cases l' with
    | nil => simp at h1
    | cons a l'' =>
      have ha := h2 a (by simp)
      subst ha
      cases l'' with
      | nil => rfl
      | cons b l3 =>
        have hb := h2 b (by simp)
        subst hb
        simp at n1
  subst hl
  obtain ⟨_, z, hz, p4⟩ := p1
  have := path_head p4
  subst this
  obtain ⟨_, z', hz', p5⟩ := p4
  have p5 : z' = x := p5
  subst p5
  refine ⟨?_, next_of_rot hz'⟩
  rw [next_of_rot hz, flip_flip]

/-- `join_segments` returns if the two segments are the only ones at the point between them. -/
theorem joinSegments_total {mid e0 e1 : Id} {s : St K} (h : Nested s) (hJ : Joinable s mid e0 e1)
    (hdeg : ∀ d : HE, d.1 ∈ s.sid.live → s.vtx d = mid → d.1 = e0 ∨ d.1 = e1) : ∃ s', joinSegments mid e0 e1 s = .ok s' := by
  have hL := h.inv.links
  have hF := h.free
  have hAB := hJ.far h.inv.tab
  obtain ⟨h0, h1, hne, ⟨v0, hv0⟩, ⟨v1, hv1⟩, hno⟩ := hJ
  have hm0 : s.vtx (e0, false) = mid ∨ s.vtx (e0, true) = mid := by cases v0; exacts [Or.inl hv0, Or.inr hv0]
  have hm1 : s.vtx (e1, false) = mid ∨ s.vtx (e1, true) = mid := by cases v1; exacts [Or.inl hv1, Or.inr hv1]
  have hP : ∀ d : HE, d.1 ∈ s.sid.live → ∀ w q, s.wire d = some w → s.wpoly w = some q → q ∈ s.qid.live :=
    fun d hd w q => h.polyLive hd
  unfold joinSegments
  dsimp only
  have hk0 : s.table (s.vtx (e0, false), s.vtx (e0, true)) = some e0 := (h.inv.tab.exact_ _ _ e0).2 ⟨h0, rfl, rfl⟩
  have hk1 : s.table (s.vtx (e1, false), s.vtx (e1, true)) = some e1 := (h.inv.tab.exact_ _ _ e1).2 ⟨h1, rfl, rfl⟩
  have hkk : (s.vtx (e0, false), s.vtx (e0, true)) ≠ (s.vtx (e1, false), s.vtx (e1, true)) := fun hh => by
    rw [hh, hk1] at hk0
    exact hne (Option.some.inj hk0).symm
  refine ex_bind (a := { s with table := upd s.table (s.vtx (e1, false), s.vtx (e1, true)) none }) ?_ ?_
  · unfold delKey
    rw [if_neg (by rw [hk1]; simp)]
  refine ex_bind (a := { s with
    table := upd (upd s.table (s.vtx (e1, false), s.vtx (e1, true)) none) (s.vtx (e0, false), s.vtx (e0, true)) none }) ?_ ?_
  · unfold delKey
    rw [if_neg]
    simp only [upd, Function.update_of_ne hkk]
    rw [hk0]
    simp
  have hvx : s.vtx (e0, if s.vtx (e0, true) = mid then true else false) = mid := by
    split
    · next h => exact h
    · next h => exact hm0.resolve_right h
  have hvy : s.vtx (e1, !(if s.vtx (e1, false) = mid then true else false)) = mid := by
    split
    · next h => exact h
    · next h => exact hm1.resolve_left h
  generalize (if s.vtx (e0, true) = mid then true else false) = in0 at *
  generalize (if s.vtx (e1, false) = mid then true else false) = in1 at *
  have hvyB : s.vtx (e1, in1) ≠ mid := by
    rw [← hvy]
    exact fun h => hL.flip_ne (d := (e1, in1)) h1 h.symm
  have hvxA : s.vtx (e0, !in0) ≠ mid := by
    rw [← hvx]
    exact hL.flip_ne (d := (e0, in0)) h0
  have hAB' := hAB _ _ hvxA hvyB
  have b1 : ((e0, in0) : HE) ≠ (e1, in1) := fun h => hne (Prod.mk.inj h).1
  have b2 : ((e0, in0) : HE) ≠ (e1, !in1) := fun h => hne (Prod.mk.inj h).1
  have b3 : ((e1, in1) : HE) ≠ (e1, !in1) := by simp
  obtain ⟨c1, c2⟩ : s.next (e0, in0) = some (e1, in1) ∧ s.next (e1, !in1) = some (e0, !in0) := by
    refine hL.two_ends (x := (e0, in0)) (y := (e1, in1)) h0 h1 (hvy.trans hvx.symm) b2 (fun d hd hv => ?_)
    rw [hvx] at hv
    obtain ⟨i, u⟩ := d
    rcases hdeg _ hd hv with hi | hi
    · dsimp only at hi
      subst hi
      left
      by_cases hu : u = in0
      · rw [hu]
      · rw [Bool.eq_not.2 hu] at hv
        exact absurd hv hvxA
    · dsimp only at hi
      subst hi
      right
      by_cases hu : u = in1
      · rw [hu] at hv
        exact absurd hv hvyB
      · rw [Bool.eq_not.2 hu]
        rfl
  refine ex_bind (a := ()) (check_ok.2 c1) (ex_bind (a := ()) (check_ok.2 c2) ?_)
  obtain ⟨bi, hbi⟩ : ∃ bi, vtxInsertInfo { s with
      table := upd (upd s.table (s.vtx (e1, false), s.vtx (e1, true)) none) (s.vtx (e0, false), s.vtx (e0, true)) none }
      (e1, in1) = .ok bi := by
    obtain ⟨k, k1, k2, k3, _⟩ := hL.next_ok (d := (e1, in1)) h1 (by simp)
    unfold vtxInsertInfo
    refine ex_bind (need_ok.2 k1) ?_
    split
    · exact ⟨_, rfl⟩
    · obtain ⟨l, hring, _⟩ := hL.ring _ (hL.vlive (e1, in1) h1)
      obtain ⟨r, h5, h6, h7⟩ := previous_ring (s := { s with
        table := upd (upd s.table (s.vtx (e1, false), s.vtx (e1, true)) none) (s.vtx (e0, false), s.vtx (e0, true)) none })
        hL.sids (hring.congr (fun _ => Iff.rfl) (fun _ _ => rfl)) ((hring.mem (e1, in1)).2 ⟨h1, rfl, by simp⟩)
      exact ex_bind h6 ⟨_, rfl⟩
  refine ex_bind hbi ?_
  have hbi' := vtxInsertInfo_ok hbi (hL.frame rfl rfl rfl rfl rfl) h1
  clear hbi
  dsimp only at hbi'
  obtain ⟨s3, h3⟩ := disconnectVtx_total (d := (e1, in1)) (s := { s with
    table := upd (upd s.table (s.vtx (e1, false), s.vtx (e1, true)) none) (s.vtx (e0, false), s.vtx (e0, true)) none })
    (hL.frame rfl rfl rfl rfl rfl) (hF.congr rfl rfl rfl rfl rfl) h1 (by simp) (by simp)
    (fun hn => (h.onePoly (d := (e1, in1)) h1 hn).congr rfl rfl)
  refine ex_bind h3 ?_
  have hF3 : Free True s3 := by
    refine disconnectVtx_free' h3 ?_ (hL.vlive (e1, in1) h1) ?_
    · exact hF.congr rfl rfl rfl rfl rfl
    · exact fun _ => hP (e1, true) h1
  obtain ⟨r, pp, fp, o, d1, d2, d3, d6, rfl, hL3, d4, d5⟩ := disconnectVtx_eff h3 (hL.frame rfl rfl rfl rfl rfl)
    (d := (e1, in1)) h1 (by simp) (by simp)
  clear h3
  dsimp only [flip_mk] at d1 d2 d3 d5 hL3 hF3 ⊢
  have r1 : r ≠ (e0, in0) := by
    rintro rfl
    rw [d1] at c1
    exact b3 (Option.some.inj c1).symm
  have r2 : r ≠ (e1, !in1) := by
    rintro rfl
    exact hvyB (d3 ▸ hvy)
  have n0 : upd (upd s.next r (s.next (e1, in1))) (e1, in1) (some (e1, !in1)) (e0, in0) = some (e1, in1) := by
    simp only [upd, Function.update_of_ne b1, Function.update_of_ne r1.symm, c1]
  have n1 : upd (upd s.next r (s.next (e1, in1))) (e1, in1) (some (e1, !in1)) (e1, !in1) = some (e0, !in0) := by
    simp only [upd, Function.update_of_ne b3.symm, Function.update_of_ne r2.symm, c2]
  obtain ⟨s4, h4⟩ := disconnectVtx_total (d := (e1, !in1)) hL3 hF3 h1 (by simp) (by simp) (fun hn => by
    have hn := n1.symm.trans hn
    exact absurd (congrArg Prod.fst (Option.some.inj hn)) hne)
  refine ex_bind h4 ?_
  have hF4 : Free True s4 := by
    refine disconnectVtx_free' h4 hF3 (hL.vlive (e1, !in1) h1) ?_
    exact fun _ => hP (e1, true) h1
  obtain ⟨r', pp', fp', o', f1, f2, f3, f6, rfl, hL4, f4, f5⟩ := disconnectVtx_eff h4 hL3
    (d := (e1, !in1)) h1 (by simp) (by simp)
  dsimp only [flip_mk] at f1 f2 f3 f5 hL4 hF4 ⊢
  rw [Bool.not_not] at f1 f5 hL4 ⊢
  have hr' : r' = (e0, in0) := hL3.next_inj f2 h0 f6 (by simpa using b1) (f1.trans n0.symm)
  subst hr'
  rw [n1] at hL4 f5 ⊢
  clear h4 hL3 hF3
  have ho' : o' ≠ none := by
    intro h
    have := Option.some.inj (f5.1 h)
    exact hne (Prod.mk.inj this).1
  have hN : upd (upd (upd (upd s.next r (s.next (e1, in1))) (e1, in1) (some (e1, !in1))) (e0, in0) (some (e0, !in0)))
      (e1, !in1) (some (e1, in1)) (e0, in0) = some (e0, !in0) := by
    simp only [upd, Function.update_of_ne b2, Function.update_self]
  obtain ⟨l, hring, _⟩ := hL4.ring mid (hvx ▸ hL.vlive (e0, in0) h0)
  have hdl := (hring.mem (e0, in0)).2 ⟨h0, hvx, by
    simp only [Set.mem_insert_iff, Set.mem_empty_iff_false, or_false, not_or]
    exact ⟨b2, b1⟩⟩
  obtain ⟨p, g1, g2, g3⟩ := previous_ring hL4.sids hring hdl
  dsimp only [flip_mk] at g2 g3
  refine ex_bind g2 ?_
  have hpx : p = (e0, in0) := by
    have hp' := (hring.mem p).1 g1
    exact hL4.next_inj hp'.1 h0 hp'.2.2 ((hring.mem _).1 hdl).2.2 (g3.trans hN.symm)
  subst hpx
  clear g1 g2 g3 hring hdl
  rw [hN, upd_same hN, upd_same hN]
  have hNy : s.next (e1, in1) ≠ some (e1, !in1) → upd (upd (upd (upd s.next r (s.next (e1, in1))) (e1, in1)
      (some (e1, !in1))) (e0, in0) (some (e0, !in0))) (e1, !in1) (some (e1, in1)) r = s.next (e1, in1) := by
    intro hh
    have r3 : r ≠ (e1, in1) := fun h => hh (h ▸ d1)
    simp only [upd, Function.update_of_ne r2, Function.update_of_ne r1, Function.update_of_ne r3, Function.update_self]
  have hNo : ∀ d : HE, d ≠ r → d.1 ≠ e1 → d ≠ (e0, in0) → upd (upd (upd (upd s.next r (s.next (e1, in1))) (e1, in1)
      (some (e1, !in1))) (e0, in0) (some (e0, !in0))) (e1, !in1) (some (e1, in1)) d = s.next d := by
    intro d hd1 hd2 hd3
    have e1' : d ≠ (e1, in1) := fun h => hd2 (h ▸ rfl)
    have e2' : d ≠ (e1, !in1) := fun h => hd2 (h ▸ rfl)
    simp only [upd, Function.update_of_ne hd1, Function.update_of_ne hd3, Function.update_of_ne e1', Function.update_of_ne e2']
  generalize upd (upd (upd (upd s.next r (s.next (e1, in1))) (e1, in1) (some (e1, !in1))) (e0, in0) (some (e0, !in0)))
    (e1, !in1) (some (e1, in1)) = N at *
  have hPB : upd (upd s.pseg (s.vtx (e1, in1)) o) (s.vtx (e1, !in1)) o' (s.vtx (e1, in1)) = o := by
    have : s.vtx (e1, in1) ≠ s.vtx (e1, !in1) := by rw [hvy]; exact hvyB
    simp only [upd, Function.update_of_ne this, Function.update_self]
  have hPm : upd (upd s.pseg (s.vtx (e1, in1)) o) (s.vtx (e1, !in1)) o' mid = o' := by
    rw [← hvy]; simp only [upd, Function.update_self]
  generalize upd (upd s.pseg (s.vtx (e1, in1)) o) (s.vtx (e1, !in1)) o' = P at *
  have hL5 := hL4.steal (d := (e0, in0)) (p := s.vtx (e1, in1)) h0 (by simp [hne]) (hL.vlive (e1, in1) h1) hAB'
    (by dsimp only; rw [hvx]; exact hvyB) hN
  dsimp only at hL5
  clear hL4
  dsimp only [flip_mk] at hbi'
  have hVx : upd s.vtx (e0, in0) (s.vtx (e1, in1)) (e0, in0) = s.vtx (e1, in1) := by simp only [upd, Function.update_self]
  have hVo : ∀ k : HE, k ≠ (e0, in0) → upd s.vtx (e0, in0) (s.vtx (e1, in1)) k = s.vtx k := fun k hk => by
    simp only [upd, Function.update_of_ne hk]
  generalize hV : upd s.vtx (e0, in0) (s.vtx (e1, in1)) = V at *
  have hbc : (bi = none ∧ (∀ k : HE, k.1 ∈ s.sid.live → V k = V (e0, in0) →
        k ∈ insert (e0, in0) (insert (e1, !in1) (insert (e1, in1) (∅ : Set HE)))) ∧ P (V (e0, in0)) = none ∧
        s.next (e1, in1) = some (e1, !in1)) ∨
      ∃ k, bi = some (r, k, s.wire (e1, in1)) ∧ V r = V (e0, in0) ∧
        r ∉ insert (e0, in0) (insert (e1, !in1) (insert (e1, in1) (∅ : Set HE))) ∧ N r = some k ∧
        s.next (e1, in1) = some k ∧ s.next (e1, in1) ≠ some (e1, !in1) := by
    rcases hbi' with ⟨q1, q2⟩ | ⟨r2', k, q1, q2, q3, q4, q5, q6⟩
    · refine Or.inl ⟨q1, fun k hk hkv => ?_, ?_, q2⟩
      · by_cases hkx : k = (e0, in0)
        · exact Or.inl hkx
        · rw [hVo k hkx, hVx] at hkv
          have := hL.tip_only (d := (e1, in1)) (k := k) h1 hk q2 hkv
          subst this
          exact Or.inr (Or.inr (Or.inl rfl))
      · rw [hVx, hPB]
        exact d5.2 q2
    · have hrr : r2' = r := hL.next_inj q5 d2 (by simp) (by simp) (q4.trans d1.symm)
      subst hrr
      have hny : s.next (e1, in1) ≠ some (e1, !in1) := by
        rw [q2]
        intro h
        exact q3 (by rw [Option.some.inj h])
      refine Or.inr ⟨k, q1, ?_, ?_, ?_, q2, hny⟩
      · rw [hVo _ r1, hVx]
        exact q6
      · rintro (h | h | h | h)
        · exact r1 h
        · exact r2 h
        · rw [h] at d1
          exact hny d1
        · exact h
      · rw [hNy hny]
        exact q2
  have hdend : bi = none → s.wire (e0, true) = s.wire (e0, false) := by
    intro hb
    have hy : s.next (e1, in1) = some (e1, !in1) := by
      rcases hbc with ⟨_, _, _, u4⟩ | ⟨k, u1, _⟩
      · exact u4
      · rw [hb] at u1; cases u1
    have w1 := (h.wires.next_wire (x := (e0, in0)) h0 c1).2
    have w2 := (h.wires.next_wire (x := (e1, in1)) h1 hy).2
    have w3 := (h.wires.next_wire (x := (e1, !in1)) h1 c2).2
    have := w3.trans (w2.trans w1)
    cases in0
    · exact this
    · exact this.symm
  clear hbi'
  obtain ⟨s5, h5⟩ : ∃ s5, connectEnd (e0, in0) bi e0 (s.wire (e0, false)) { s with
      table := upd (upd s.table (s.vtx (e1, false), s.vtx (e1, true)) none) (s.vtx (e0, false), s.vtx (e0, true)) none
      ppoly := pp'
      fpts := fp'
      pseg := P
      next := N
      vtx := V } = .ok s5 := by
    have hvl : V (e0, in0) ∈ s.pid.live := by rw [hVx]; exact hL.vlive (e1, in1) h1
    unfold connectEnd
    rcases hbc with ⟨u1, u2, u3, u4⟩ | ⟨k, u1, u2, u3, u4, u5, u6⟩
    · rw [u1]
      dsimp only
      exact ex_bind (a := ()) (check_ok.2 (hdend u1)) (connectFree_total (hF4.congr rfl rfl rfl rfl rfl) hvl)
    · rw [u1]
      dsimp only
      refine connectVtx_total (hF4.congr rfl rfl rfl rfl rfl) hvl ?_ u2
      obtain ⟨k', e1', e2', e3', _⟩ := hL.next_ok (d := (e1, in1)) h1 (by simp)
      rw [u5] at e1'
      cases e1'
      dsimp only
      have : flip k ≠ (e0, in0) := by
        intro hh
        rw [hh, hvx] at e3'
        exact hvyB e3'.symm
      rw [hVo _ this, hVx]
      exact e3'
  refine ex_bind h5 ?_
  have hF5 : Free True s5 := by
    refine connectEnd_free h5 ?_
    exact hF4.congr rfl rfl rfl rfl rfl
  obtain ⟨pp5, fp5, ps5, N5, W5, rfl, hL6, hc⟩ := connectEnd_eff h5 hL5 h0 (Set.mem_insert _ _) (by
    dsimp only
    rw [hVx, hvx]
    simpa using hvyB) (by
    dsimp only
    rcases hbc with ⟨u1, u2, u3, _⟩ | ⟨k, u1, u2, u3, u4, _⟩
    · exact Or.inl ⟨u1, u2, u3⟩
    · exact Or.inr ⟨r, k, _, u1, d2, u2, u3, u4⟩)
  clear h5 hL5 hF4
  dsimp only at hL6 hF5 hc ⊢
  have hc' : (∃ k, ps5 (s.vtx (e1, in1)) = some k ∧ k.1 ≠ e1) ∧ ps5 mid = o' ∧
      N5 (e0, in0) = (if s.next (e1, in1) = some (e1, !in1) then some (e0, !in0) else s.next (e1, in1)) ∧
      (∀ d : HE, d.1 ≠ e1 → d.1 ∈ s.sid.live → d ≠ (e0, in0) →
        N5 d = if s.next d = some (e1, !in1) then some (e0, !in0) else s.next d) ∧
      (W5 (e0, in0) = s.wire (e1, in1) ∨
        (s.next (e1, in1) = some (e1, !in1) ∧ W5 (e0, in0) = s.wire (e0, false))) ∧ ∀ d, d ≠ (e0, in0) → W5 d = s.wire d := by
    have hru : ∀ d : HE, d.1 ∈ s.sid.live → s.next d = some (e1, !in1) → d = r := fun d hd hh =>
      hL.next_inj hd d2 (by simp) (by simp) (hh.trans d1.symm)
    rcases hbc with ⟨u1, u2, u3, u4⟩ | ⟨k, u1, u2, u3, u4, u5, u6⟩ <;>
      rcases hc with ⟨v1, rfl, rfl, rfl⟩ | ⟨r0, k0, w0, v1, rfl, rfl, rfl⟩ <;> rw [u1] at v1
    · refine ⟨⟨(e0, in0), ?_, hne⟩, ?_, ?_, fun d z1 z2 z3 => ?_, ?_, fun d z => ?_⟩
      · rw [hVx]; simp only [upd, Function.update_self]
      · rw [hVx]; simp only [upd, Function.update_of_ne hvyB.symm]; exact hPm
      · rw [if_pos u4]; simp only [upd, Function.update_self, flip_mk]
      · simp only [upd, Function.update_of_ne z3]
        have hdr : d ≠ r := by
          rintro rfl
          have := hL.next_inj z2 h1 (by simp) (by simp) (d1.trans u4.symm)
          exact z1 (by rw [this])
        rw [hNo d hdr z1 z3, if_neg]
        exact fun h => hdr (hru d z2 h)
      · right; exact ⟨u4, by simp only [upd, Function.update_self]⟩
      · simp only [upd, Function.update_of_ne z]
    · cases v1
    · cases v1
    · simp only [Option.some.injEq, Prod.mk.injEq] at v1
      obtain ⟨rfl, rfl, rfl⟩ := v1
      refine ⟨?_, hPm, ?_, fun d z1 z2 z3 => ?_, ?_, fun d z => ?_⟩
      · rw [hPB]
        cases o with
        | none => exact absurd (d5.1 rfl) u6
        | some k' => exact ⟨k', rfl, d4 k' rfl⟩
      · rw [if_neg u6]; simp only [upd, Function.update_of_ne r1.symm, Function.update_self, u5]
      · by_cases hdr : d = r
        · subst hdr
          rw [if_pos d1]; simp only [upd, Function.update_self, flip_mk]
        · rw [if_neg (fun h => hdr (hru d z2 h))]
          simp only [upd, Function.update_of_ne hdr, Function.update_of_ne z3]
          exact hNo d hdr z1 z3
      · left; simp only [upd, Function.update_self]
      · simp only [upd, Function.update_of_ne z]
  clear hc hbc
  obtain ⟨⟨kB, hkB, hkB'⟩, hpsm, hNx', hNo', hWx, hWo⟩ := hc'
  have hWe : ∀ v, W5 (e1, v) = s.wire (e1, v) := fun v => hWo _ (fun hh => hne (Prod.mk.inj hh).1.symm)
  obtain ⟨wt, hwt, _⟩ := h.wires.lab (e1, true) h1
  obtain ⟨wf, hwf, _⟩ := h.wires.lab (e1, false) h1
  obtain ⟨s6, h6⟩ : ∃ s6, fixWireSeg e0 e1 true { s with
      table := upd (upd s.table (s.vtx (e1, false), s.vtx (e1, true)) none) (s.vtx (e0, false), s.vtx (e0, true)) none
      ppoly := pp5
      fpts := fp5
      pseg := ps5
      next := N5
      vtx := V
      wire := W5 } = .ok s6 := ex_bind (need_ok.2 ((hWe true).trans hwt)) ⟨_, rfl⟩
  refine ex_bind h6 ?_
  have h6' := h6
  obtain ⟨w1, hw1, rfl⟩ := fixWireSeg_ok h6'
  have hfix : ∀ t : St K, t.wire = W5 → ∃ s7, fixWireSeg e0 e1 false t = .ok s7 := fun t ht =>
    ex_bind (need_ok.2 ((congrFun ht _).trans ((hWe false).trans hwf))) ⟨_, rfl⟩
  obtain ⟨s7, h7⟩ := hfix { s with
      table := upd (upd s.table (s.vtx (e1, false), s.vtx (e1, true)) none) (s.vtx (e0, false), s.vtx (e0, true)) none
      ppoly := pp5
      fpts := fp5
      pseg := ps5
      next := N5
      vtx := V
      wire := W5
      wseg := if s.wseg w1 = some (e1, true) then upd s.wseg w1 (some (e0, true)) else s.wseg } rfl
  refine ex_bind h7 ?_
  obtain ⟨ws, rfl, hws⟩ := fixWireSegs_ok h6 h7 hne
  clear h6 h7 h6'
  dsimp only
  have hPW : ∀ d : HE, d.1 ∈ s.sid.live → ∀ w q, W5 d = some w → s.wpoly w = some q → q ∈ s.qid.live := by
    intro d hd w q hw hq
    by_cases hdx : d = (e0, in0)
    · subst hdx
      rcases hWx with hh | ⟨_, hh⟩
      · exact hP (e1, in1) h1 w q (hh ▸ hw) hq
      · exact hP (e0, false) h0 w q (hh ▸ hw) hq
    · exact hP d hd w q (hWo d hdx ▸ hw) hq
  have hVe : ∀ v, V (e1, v) = s.vtx (e1, v) := fun v => hVo _ (fun h => hne (Prod.mk.inj h).1.symm)
  obtain ⟨s8, h8⟩ : ∃ s8, destroySegment e1 { s with
      table := upd (upd (upd s.table (s.vtx (e1, false), s.vtx (e1, true)) none) (s.vtx (e0, false), s.vtx (e0, true)) none)
        (V (e0, false), V (e0, true)) (some e0)
      ppoly := pp5
      fpts := fp5
      pseg := ps5
      next := N5
      vtx := V
      wire := W5
      wseg := ws } = .ok s8 := by
    refine destroySegment_other h1 ?_ (fun v => ?_)
    · dsimp only
      rw [hVe, hVe]
      exact hL.vne e1 h1
    · dsimp only
      rw [hVe]
      by_cases hv : v = in1
      · rw [hv]; exact ⟨kB, hkB, hkB'⟩
      · rw [Bool.eq_not.2 hv, hvy, hpsm]
        obtain ⟨k, hk⟩ := Option.ne_none_iff_exists'.1 ho'
        exact ⟨k, hk, f4 k hk⟩
  refine ex_bind h8 ?_
  have hF8 : Free True s8 := by
    refine destroySegment_free' h8 ?_ ?_ ?_ ?_
    · exact hF5.congr rfl rfl rfl rfl rfl
    · dsimp only; rw [hVe]; exact hL.vlive (e1, false) h1
    · dsimp only; rw [hVe]; exact hL.vlive (e1, true) h1
    · exact fun _ => hPW (e1, true) h1
  unfold destroySegment at h8
  simp only [bind_ok, Except.ok.injEq] at h8
  obtain ⟨s9, h9, s10, h10, m, hm, rfl⟩ := h8
  obtain ⟨pp9, fp9, o9, rfl, _⟩ := rmSegment_eq h9
  obtain ⟨pp10, fp10, o10, rfl, _⟩ := rmSegment_eq h10
  obtain ⟨w, q, hw, hq⟩ : ∃ w q, W5 (e0, true) = some w ∧ s.wpoly w = some q := by
    by_cases hx : (e0, true) = (e0, in0)
    · rw [← hx] at hWx
      rcases hWx with hh | ⟨_, hh⟩
      · obtain ⟨w, q, k1, _, _, k2, _⟩ := h.side (d := (e1, in1)) h1
        exact ⟨w, q, hh.trans k1, k2⟩
      · obtain ⟨w, q, k1, _, _, k2, _⟩ := h.side (d := (e0, false)) h0
        exact ⟨w, q, hh.trans k1, k2⟩
    · obtain ⟨w, q, k1, _, _, k2, _⟩ := h.side (d := (e0, true)) h0
      exact ⟨w, q, (hWo _ hx).trans k1, k2⟩
  refine ex_bind (a := q) ?_ (setPolygon_total hF8 ?_)
  · exact bind_ok.2 ⟨w, need_ok.2 hw, need_ok.2 hq⟩
  · show mid ∈ s.pid.live
    rw [← hvx]
    exact hL.vlive (e0, in0) h0

end Verif.Decomp
