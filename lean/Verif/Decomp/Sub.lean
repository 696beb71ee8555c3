import Verif.Decomp.Del

/-! Splitting of a segment by a point and the reverse joining: links and free points. -/
namespace Verif.Decomp

variable {K : Type} {T : Prop}

/-- The point of a disconnected end is changed. -/
theorem Links.revtx {s : St K} {X : Set HE} {Y : Set Id} (hL : Links s X Y) {d : HE} {p : Id} (hX : d ∈ X)
    (hp : p ∈ s.pid.live) (hne : s.vtx (flip d) ≠ p) (hps : ∀ x ∈ s.pid.live, s.pseg x ≠ some d) :
    Links { s with vtx := upd s.vtx d p } X Y := by
  have hv : ∀ k, k ≠ d → upd s.vtx d p k = s.vtx k := fun k hk => by simp only [upd, Function.update_of_ne hk]
  refine ⟨hL.sids, fun k hk => ?_, fun e he => ?_, fun x hx => ?_⟩
  · by_cases hkd : k = d
    · subst hkd; simpa [upd] using hp
    · simp only [hv k hkd]; exact hL.vlive k hk
  · have h1 := hL.vne e he
    obtain ⟨d1, v⟩ := d
    by_cases hed : e = d1
    · subst hed
      cases v
      · simp only [upd, Function.update_self, Function.update_of_ne (show ((e, true) : HE) ≠ (e, false) by simp)]
        exact fun h => hne h.symm
      · simp only [upd, Function.update_self, Function.update_of_ne (show ((e, false) : HE) ≠ (e, true) by simp)]
        exact hne
    · dsimp only
      rw [hv _ (fun h => hed (by rw [Prod.mk.injEq] at h; exact h.1)),
        hv _ (fun h => hed (by rw [Prod.mk.injEq] at h; exact h.1))]
      exact h1
  · obtain ⟨l, hr, hP⟩ := hL.ring x hx
    refine ⟨l, ⟨hr.nd, fun k => ?_, hr.path⟩, fun hY => ⟨(hP hY).non, fun k hk => ?_⟩⟩
    · rw [hr.mem]
      constructor
      · rintro ⟨h1, h2, h3⟩
        exact ⟨h1, by dsimp only; rw [hv k (fun h => h3 (h ▸ hX))]; exact h2, h3⟩
      · rintro ⟨h1, h2, h3⟩
        dsimp only at h2
        exact ⟨h1, by rw [← hv k (fun h => h3 (h ▸ hX))]; exact h2, h3⟩
    · rcases (hP hY).som k hk with h1 | ⟨h1, h2, h3, h4⟩
      · exact Or.inl h1
      · refine Or.inr ⟨h1, h2, h3, ?_⟩
        have : k ≠ d := by
          rintro rfl
          exact hps x hx hk
        simp only [hv k this]; exact h4

theorem Links.pseg_vtx {s : St K} {X : Set HE} {Y : Set Id} (hL : Links s X Y) {p : Id} (hp : p ∈ s.pid.live)
    (hY : p ∉ Y) {d : HE} (h : s.pseg p = some d) : d.1 ∈ s.sid.live ∧ s.vtx d = p := by
  obtain ⟨l, hr, hP⟩ := hL.ring p hp
  rcases (hP hY).som d h with h1 | ⟨_, _, h3, h4⟩
  · have := (hr.mem d).1 h1
    exact ⟨this.1, this.2.1⟩
  · exact ⟨h3, h4⟩

theorem connectTip_eff {d t ft : HE} {w : Option Id} {s s' : St K} {X : Set HE} {Y : Set Id}
    (h : connectVtx d (t, ft, w) s = .ok s') (hft : ft = flip t) (hL : Links s X Y)
    (hd : d.1 ∈ s.sid.live) (hX : d ∈ X) (ht : t.1 ∈ s.sid.live) (htX : t ∈ X) (hv : s.vtx t = s.vtx d) (htd : t ≠ d)
    (hno : ∀ k : HE, k.1 ∈ s.sid.live → s.vtx k = s.vtx d → k ∈ X) (hon : ∀ k : HE, k.1 ∈ s.sid.live →
      s.vtx k = s.vtx d → k = d ∨ k = t)
    (hp : s.pseg (s.vtx d) = some d) :
    s' = { s with
        next := upd (upd s.next d (some (flip t))) t (some (flip d))
        wire := upd s.wire d w } ∧ Links s' (X \ {d, t}) Y :=
  connectTip_links hL hd hX ht htX hv htd hno hon hp (hft ▸ h)

theorem connectVtx_eff {d : HE} {i : Ins} {s s' : St K} {X : Set HE} {Y : Set Id} (h : connectVtx d i s = .ok s')
    (hL : Links s X Y) (hd : d.1 ∈ s.sid.live) (hX : d ∈ X) (hY : s.vtx d ∉ Y) (h1 : i.1.1 ∈ s.sid.live)
    (h2 : s.vtx i.1 = s.vtx d) (h3 : i.1 ∉ X) (h4 : s.next i.1 = some i.2.1) :
    s' = { s with
        next := upd (upd s.next d (some i.2.1)) i.1 (some (flip d))
        wire := upd s.wire d i.2.2 } ∧ Links s' (X \ {d}) Y := connectVtx_links hL hd hX hY h1 h2 h3 h4 h

theorem connectFree_eff {d : HE} {w : Option Id} {s s' : St K} {X : Set HE} {Y : Set Id}
    (h : connectFree d w s = .ok s') (hL : Links s X Y)
    (hd : d.1 ∈ s.sid.live) (hX : d ∈ X) (hno : ∀ k : HE, k.1 ∈ s.sid.live → s.vtx k = s.vtx d → k ∈ X)
    (hp : s.pseg (s.vtx d) = none ∨ s.pseg (s.vtx d) = some d) :
    ∃ pp fp, s' = { s with
        ppoly := pp
        fpts := fp
        pseg := upd s.pseg (s.vtx d) (some d)
        next := upd s.next d (some (flip d))
        wire := upd s.wire d w } ∧ Links s' (X \ {d}) Y := connectFree_links hL hd hX hno hp h

theorem disconnectVtx_eff {d : HE} {s s' : St K} {X : Set HE} {Y : Set Id} (h : disconnectVtx d s = .ok s')
    (hL : Links s X Y) (hd : d.1 ∈ s.sid.live) (hX : d ∉ X) (hY : s.vtx d ∉ Y) :
    ∃ r pp fp o, s.next r = some (flip d) ∧ r.1 ∈ s.sid.live ∧ s.vtx r = s.vtx d ∧ r ∉ X ∧
      s' = { s with
        ppoly := pp
        fpts := fp
        pseg := upd s.pseg (s.vtx d) o
        next := upd (upd s.next r (s.next d)) d (some (flip d)) } ∧
      Links s' (insert d X) Y ∧ (∀ k, o = some k → k.1 ≠ d.1) ∧ (o = none ↔ s.next d = some (flip d)) :=
  disconnectVtx_links hL hd hX hY h

theorem destroySegment_eff {e : Id} {s s' : St K} {X : Set HE} {Y : Set Id}
    (h : destroySegment e s = .ok s') (hL : Links s X Y)
    (he : e ∈ s.sid.live) (h0 : EndOk s X Y (e, false)) (h1 : EndOk s X Y (e, true)) :
    ∃ pp fp ps m, s' = { s with
        ppoly := pp
        fpts := fp
        pseg := ps
        sid := m
        table := upd (upd s.table (s.vtx (e, false), s.vtx (e, true)) none) (s.vtx (e, true), s.vtx (e, false)) none } ∧
      s.sid.remove e = .ok m ∧ Links s' X Y ∧
      (∀ v, (e, v) ∉ X → ps (s.vtx (e, v)) = none) ∧ (∀ p, (∀ v, s.vtx (e, v) = p → (e, v) ∈ X) → ps p = s.pseg p) :=
  destroySegment_links hL he h0 h1 h

/-- The only segment at a point. -/
theorem Links.tip_only {s : St K} (hL : Links s ∅ ∅) {d k : HE} (hd : d.1 ∈ s.sid.live) (hk : k.1 ∈ s.sid.live)
    (h : s.next d = some (flip d)) (hv : s.vtx k = s.vtx d) : k = d := by
  obtain ⟨l, hr, _⟩ := hL.ring _ (hL.vlive d hd)
  have h1 := hr.unique ((hr.mem d).2 ⟨hd, rfl, by simp⟩) h
  have h2 := (hr.mem k).2 ⟨hk, hv, by simp⟩
  rw [h1] at h2
  simpa using h2

theorem vtxInsertInfo_ok {s : St K} {d : HE} {o : Option Ins} (h : vtxInsertInfo s d = .ok o) (hL : Links s ∅ ∅)
    (hd : d.1 ∈ s.sid.live) :
    (o = none ∧ s.next d = some (flip d)) ∨ ∃ r k, o = some (r, k, s.wire d) ∧ s.next d = some k ∧ k.1 ≠ d.1 ∧
      s.next r = some (flip d) ∧ r.1 ∈ s.sid.live ∧ s.vtx r = s.vtx d := by
  unfold vtxInsertInfo at h
  simp only [bind_ok, need_ok] at h
  obtain ⟨k, hk, h⟩ := h
  obtain ⟨k', h1, h2, h3, _⟩ := hL.next_ok hd (by simp)
  rw [hk] at h1
  obtain rfl := Option.some.inj h1
  split at h
  · next h4 =>
    simp only [Except.ok.injEq] at h
    refine Or.inl ⟨h.symm, ?_⟩
    rcases eq_or_flip h4 with rfl | rfl
    · exact absurd h3 (hL.flip_ne hd)
    · exact hk
  · next h4 =>
    simp only [bind_ok, Except.ok.injEq] at h
    obtain ⟨r, hr, rfl⟩ := h
    obtain ⟨l, hring, _⟩ := hL.ring _ (hL.vlive d hd)
    have hdl := (hring.mem d).2 ⟨hd, rfl, by simp⟩
    obtain ⟨r', h5, h6, h7⟩ := previous_ring hL.sids hring hdl
    rw [hr, Except.ok.injEq] at h6
    subst h6
    have := (hring.mem r).1 h5
    exact Or.inr ⟨r, k, rfl, hk, h4, h7, this.1, this.2.1⟩

/-- What `split_segment` does. -/
structure SplitSeg [Field K] (s s' : St K) (e n mid : Id) : Prop where
  was : e ∈ s.sid.live
  fresh : n ∉ s.sid.live
  sid : s'.sid = s.sid.append.2
  live : ∀ j, j ∈ s'.sid.live ↔ j ∈ s.sid.live ∨ j = n
  ve : s'.vtx (e, true) = mid
  vn0 : s'.vtx (n, false) = mid
  vn1 : s'.vtx (n, true) = s.vtx (e, true)
  vo : ∀ d : HE, d ≠ (e, true) → d.1 ≠ n → s'.vtx d = s.vtx d
  ne0 : mid ≠ s.vtx (e, false)
  ne1 : mid ≠ s.vtx (e, true)
  /-- The new side after the shortened one. -/
  nx1 : s'.next (e, true) = some (n, true)
  nx0 : s'.next (n, false) = some (e, false)
  /-- The other end has the links that the split segment had there. -/
  nb : s'.next (n, true) = if s.next (e, true) = some (e, false) then some (n, false) else s.next (e, true)
  no : ∀ d : HE, d.1 ∈ s.sid.live → d ≠ (e, true) →
    s'.next d = if s.next d = some (e, false) then some (n, false) else s.next d
  wn : ∀ v, s'.wire (n, v) = s.wire (e, v)
  wo : ∀ d : HE, d.1 ≠ n → s'.wire d = s.wire d
  tab : s'.table = upd (upd (upd s.table (s.vtx (e, false), s.vtx (e, true)) none) (s.vtx (e, false), mid) (some e))
    (mid, s.vtx (e, true)) (some n)
  vec : s'.vec = upd (upd s.vec n ((s.xy (s.vtx (e, true))).1 - (s.xy mid).1, (s.xy (s.vtx (e, true))).2 - (s.xy mid).2)) e
    ((s.xy mid).1 - (s.xy (s.vtx (e, false))).1, (s.xy mid).2 - (s.xy (s.vtx (e, false))).2)
  xy : s'.xy = s.xy
  pid : s'.pid = s.pid
  wid : s'.wid = s.wid
  qid : s'.qid = s.qid
  outer : s'.outer = s.outer
  wpoly : s'.wpoly = s.wpoly
  parent : s'.parent = s.parent
  childs : s'.childs = s.childs
  wseg : s'.wseg = s.wseg

variable [Field K]

theorem splitSegment_eff {e mid n : Id} {s s' : St K} (h : splitSegment e mid s = .ok (n, s')) (hL : Links s ∅ ∅)
    (he : e ∈ s.sid.live) (hm : mid ∈ s.pid.live) (hfree : s.pseg mid = none) (hF : Free T s) (hP : T → PolyLive s e) :
    Links s' ∅ ∅ ∧ Free T s' ∧ SplitSeg s s' e n mid := by
  unfold splitSegment at h
  simp only [bind_ok] at h
  obtain ⟨bi, hbi, s1, h1, s2, h2, ⟨m, s3⟩, h3, s4, h4, s5, h5, h6⟩ := h
  simp only [Except.ok.injEq, Prod.mk.injEq] at h6
  obtain ⟨rfl, rfl⟩ := h6
  have hm0 : s.vtx (e, false) ≠ mid := hL.no_seg hm (by simp) hfree _ he
  have hm1 : s.vtx (e, true) ≠ mid := hL.no_seg hm (by simp) hfree _ he
  have hvne := hL.vne e he
  have hbi := vtxInsertInfo_ok hbi hL he
  have hF1 := disconnectVtx_free hF (hL.vlive (e, true) he) hP h1
  obtain ⟨r, pp, fp, o, d1, d2, d3, d6, rfl, hL1, d4, d5⟩ := disconnectVtx_links hL (d := (e, true)) he (by simp)
    (by simp) h1
  clear h1
  dsimp only at h2
  unfold delKey at h2
  split at h2
  · cases h2
  simp only [Except.ok.injEq] at h2
  subst h2
  dsimp only at h3 h4
  have hL3 := makeSegment_links (s := { s with
    ppoly := pp
    fpts := fp
    pseg := upd s.pseg (s.vtx (e, true)) o
    next := upd (upd s.next r (s.next (e, true))) (e, true) (some (flip (e, true)))
    table := upd (upd s.table (s.vtx (e, false), s.vtx (e, true)) none) (s.vtx (e, false), mid) (some e) })
    (hL1.frame rfl rfl rfl rfl rfl) hm (hL.vlive (e, true) he) h3
  have hF3 := makeSegment_free (T := T) (s := { s with
    ppoly := pp
    fpts := fp
    pseg := upd s.pseg (s.vtx (e, true)) o
    next := upd (upd s.next r (s.next (e, true))) (e, true) (some (flip (e, true)))
    table := upd (upd s.table (s.vtx (e, false), s.vtx (e, true)) none) (s.vtx (e, false), mid) (some e) })
    (hF1.congr rfl rfl rfl rfl rfl) h3
  obtain ⟨_, hn, pp', fp', rfl⟩ := makeSegment_eq h3
  clear h3
  dsimp only at h4 hL3 hF3 hn
  obtain ⟨hn1, hn2, _⟩ := Ids.append_ok hL.sids
  rw [← hn] at hn1 hn2
  have hen : e ≠ m := fun h => hn1 (h ▸ he)
  have hlv : ∀ j, j ∈ s.sid.append.2.live ↔ j ∈ s.sid.live ∨ j = m := by
    intro j; rw [hn2]; simp
  have a1 : ((e, true) : HE) ≠ (m, false) := by simp
  have a2 : ((e, true) : HE) ≠ (m, true) := by simpa using hen
  have a3 : ((m, false) : HE) ≠ (m, true) := by simp
  have a4 : ((e, false) : HE) ≠ (m, false) := by simpa using hen
  have a5 : ((e, false) : HE) ≠ (m, true) := by simp
  have a6 : ((e, false) : HE) ≠ (e, true) := by simp
  -- ends of segments
  have hVe : upd (upd (upd s.vtx (m, false) mid) (m, true) (s.vtx (e, true))) (e, true) mid (e, true) = mid := by
    simp [upd]
  have hV0 : upd (upd (upd s.vtx (m, false) mid) (m, true) (s.vtx (e, true))) (e, true) mid (m, false) = mid := by
    simp only [upd, Function.update_of_ne a1.symm, Function.update_of_ne a3, Function.update_self]
  have hV1 : upd (upd (upd s.vtx (m, false) mid) (m, true) (s.vtx (e, true))) (e, true) mid (m, true) =
      s.vtx (e, true) := by
    simp only [upd, Function.update_of_ne a2.symm, Function.update_self]
  have hVo : ∀ d : HE, d ≠ (e, true) → d.1 ≠ m →
      upd (upd (upd s.vtx (m, false) mid) (m, true) (s.vtx (e, true))) (e, true) mid d = s.vtx d := by
    intro d h1 h2
    have h3 : d ≠ (m, true) := fun h => h2 (by rw [h])
    have h4 : d ≠ (m, false) := fun h => h2 (by rw [h])
    simp only [upd, Function.update_of_ne h1, Function.update_of_ne h3, Function.update_of_ne h4]
  have hmid : ∀ k : HE, k.1 ∈ s.sid.append.2.live →
      upd (upd (upd s.vtx (m, false) mid) (m, true) (s.vtx (e, true))) (e, true) mid k = mid →
      k = (m, false) ∨ k = (e, true) := by
    intro k hk hv
    by_cases h1 : k = (e, true)
    · exact Or.inr h1
    · by_cases h2 : k.1 = m
      · left
        rcases eq_or_flip (h := k) (k := ((m, false) : HE)) h2 with h3 | h3
        · exact h3
        · rw [h3, flip_mk, Bool.not_false, hV1] at hv
          exact absurd hv hm1
      · rw [hVo k h1 h2] at hv
        exact absurd hv (hL.no_seg hm (by simp) hfree k (((hlv k.1).1 hk).resolve_right h2))
  -- stored segments of points
  have hps : ∀ x ∈ s.pid.live, (if x = mid ∧ upd s.pseg (s.vtx (e, true)) o mid = none then some (m, false)
      else if x = s.vtx (e, true) ∧ upd s.pseg (s.vtx (e, true)) o (s.vtx (e, true)) = none then some (m, true)
      else upd s.pseg (s.vtx (e, true)) o x) ≠ some (e, true) := by
    intro x hx h7
    split at h7
    · exact a1 (Option.some.inj h7).symm
    · split at h7
      · exact a2 (Option.some.inj h7).symm
      · by_cases hxb : x = s.vtx (e, true)
        · subst hxb
          simp only [upd, Function.update_self] at h7
          exact d4 _ h7 rfl
        · simp only [upd, Function.update_of_ne hxb] at h7
          exact hxb (hL.pseg_vtx hx (by simp) h7).2.symm
  have hL4 := hL3.revtx (d := (e, true)) (p := mid) (by simp) hm (by
    simp only [flip_mk, Bool.not_true, upd, Function.update_of_ne a5, Function.update_of_ne a4]
    exact hm0) hps
  clear hL3
  dsimp only at hL4
  have hF4 : Free T s4 := by
    refine connectVtx_free ?_ h4
    exact hF3.congr rfl rfl rfl rfl rfl
  obtain ⟨rfl, hL5⟩ := connectTip_eff h4 rfl (hL4.frame rfl rfl rfl rfl rfl)
    ((hlv m).2 (Or.inr rfl)) (by simp) ((hlv e).2 (Or.inl he)) (by simp) (hVe.trans hV0.symm) a1
    (fun k hk hv => by
      rcases hmid k hk (hv.trans hV0) with rfl | rfl <;> simp)
    (fun k hk hv => hmid k hk (hv.trans hV0)) (by
      dsimp only
      rw [hV0]
      unfold makePs
      dsimp only
      rw [if_pos]
      exact ⟨rfl, by simpa only [upd, Function.update_of_ne hm1.symm] using hfree⟩)
  clear h4 hL4 hF3
  dsimp only at hF4 hL5 h5
  have hX : ((insert (e, true) ∅ ∪ {d : HE | d.1 = m}) \ {(m, false), (e, true)} : Set HE) = {(m, true)} := by
    ext ⟨j, v⟩
    cases v <;> simp [eq_comm]
    intro h
    exact fun h2 => hen (h2.trans h.symm)
  rw [hX] at hL5
  have hX0 : ({(m, true)} : Set HE) \ {(m, true)} = ∅ := by simp
  unfold connectEnd at h5
  rcases hbi with ⟨rfl, hb⟩ | ⟨r', k, rfl, hb, b1, b2, b3, b4⟩
  · simp only [bind_ok, check_ok] at h5
    obtain ⟨_, _, h5⟩ := h5
    have hF5 := connectFree_free (T := T) hF4 h5
    obtain ⟨pp2, fp2, rfl, hL6⟩ := connectFree_eff h5 hL5 ((hlv m).2 (Or.inr rfl)) (by simp)
      (fun k hk hv => by
        dsimp only at hv hk
        rw [hV1] at hv
        by_cases h7 : k.1 = m
        · rcases eq_or_flip (h := k) (k := ((m, true) : HE)) h7 with rfl | rfl
          · simp
          · rw [flip_mk, Bool.not_true, hV0] at hv
            exact absurd hv.symm hm1
        · by_cases h8 : k = (e, true)
          · subst h8
            rw [hVe] at hv
            exact absurd hv.symm hm1
          · rw [hVo k h8 h7] at hv
            exact absurd (hL.tip_only he (((hlv k.1).1 hk).resolve_right h7) hb hv) h8)
      (by
        right
        dsimp only
        rw [hV1]
        unfold makePs
        dsimp only
        rw [if_neg (fun h => hm1 h.1), if_pos]
        refine ⟨rfl, ?_⟩
        simp only [upd, Function.update_self]
        exact d5.2 hb)
    clear h5 hL5 hF4
    dsimp only at hF5 hL6
    rw [hX0] at hL6
    refine ⟨hL6, hF5, ?_⟩
    have hr : r = (e, true) := hL.next_inj d2 he (by simp) (by simp) (d1.trans hb.symm)
    subst hr
    constructor
    · exact he
    · exact hn1
    · rfl
    · exact hlv
    · exact hVe
    · exact hV0
    · exact hV1
    · exact hVo
    · exact hm0.symm
    · exact hm1.symm
    · simp only [upd, Function.update_of_ne a2, Function.update_self]
      rfl
    · simp only [upd, Function.update_of_ne a3, Function.update_of_ne a1.symm, Function.update_self]
      rfl
    · rw [if_pos (show s.next (e, true) = some (e, false) from hb)]
      simp only [upd, Function.update_self]
      rfl
    · intro d hd hde
      have h6 : d.1 ≠ m := fun h => hn1 (h ▸ hd)
      have h7 : d ≠ (m, true) := fun h => h6 (by rw [h])
      have h8 : d ≠ (m, false) := fun h => h6 (by rw [h])
      rw [if_neg (fun h => hde (hL.next_inj hd he (by simp) (by simp) (h.trans hb.symm)))]
      simp only [upd, Function.update_of_ne h7, Function.update_of_ne h8, Function.update_of_ne hde]
    · intro v
      cases v
      · simp only [upd, Function.update_of_ne a3, Function.update_self]
      · simp only [upd, Function.update_self, Function.update_of_ne a1, Function.update_of_ne a2]
    · intro d hd
      have h7 : d ≠ (m, true) := fun h => hd (by rw [h])
      have h8 : d ≠ (m, false) := fun h => hd (by rw [h])
      simp only [upd, Function.update_of_ne h7, Function.update_of_ne h8]
    all_goals rfl
  · have hr : r' = r := hL.next_inj b3 d2 (by simp) (by simp) (b2.trans d1.symm)
    subst hr
    have hbn : s.next (e, true) ≠ some (e, false) := by
      rw [hb]
      intro h
      exact b1 (by rw [Option.some.inj h])
    have c1 : r' ≠ (e, true) := by
      rintro rfl
      exact hbn d1
    have c2 : r'.1 ≠ m := fun h => hn1 (h ▸ b3)
    have c3 : r' ≠ (m, true) := fun h => c2 (by rw [h])
    have c4 : r' ≠ (m, false) := fun h => c2 (by rw [h])
    have hF5 := connectVtx_free (T := T) hF4 h5
    obtain ⟨rfl, hL6⟩ := connectVtx_eff h5 hL5 ((hlv m).2 (Or.inr rfl)) (by simp) (by simp) ((hlv _).2 (Or.inl b3))
      (by
        dsimp only
        rw [hVo r' c1 c2, hV1]
        exact b4) (by simpa using c3) (by
        simp only [upd, Function.update_of_ne c1, Function.update_of_ne c3, Function.update_of_ne c4,
          Function.update_self]
        exact hb)
    clear h5 hL5 hF4
    dsimp only at hF5 hL6
    rw [hX0] at hL6
    refine ⟨hL6, hF5, ?_⟩
    constructor
    · exact he
    · exact hn1
    · rfl
    · exact hlv
    · exact hVe
    · exact hV0
    · exact hV1
    · exact hVo
    · exact hm0.symm
    · exact hm1.symm
    · simp only [upd, Function.update_of_ne c1.symm, Function.update_of_ne a2, Function.update_self]
      rfl
    · simp only [upd, Function.update_of_ne c4.symm, Function.update_of_ne a3, Function.update_of_ne a1.symm,
        Function.update_self]
      rfl
    · rw [if_neg hbn]
      simp only [upd, Function.update_of_ne c3.symm, Function.update_self]
      exact hb.symm
    · intro d hd hde
      have h6 : d.1 ≠ m := fun h => hn1 (h ▸ hd)
      have h7 : d ≠ (m, true) := fun h => h6 (by rw [h])
      have h8 : d ≠ (m, false) := fun h => h6 (by rw [h])
      by_cases hdr : d = r'
      · subst hdr
        rw [if_pos (show s.next d = some (e, false) from b2)]
        simp only [upd, Function.update_self]
        rfl
      · rw [if_neg (fun h => hdr (hL.next_inj hd b3 (by simp) (by simp) (h.trans b2.symm)))]
        simp only [upd, Function.update_of_ne h7, Function.update_of_ne h8, Function.update_of_ne hde,
          Function.update_of_ne hdr]
    · intro v
      cases v
      · simp only [upd, Function.update_of_ne a3, Function.update_self]
      · simp only [upd, Function.update_self, Function.update_of_ne a1, Function.update_of_ne a2]
    · intro d hd
      have h7 : d ≠ (m, true) := fun h => hd (by rw [h])
      have h8 : d ≠ (m, false) := fun h => hd (by rw [h])
      simp only [upd, Function.update_of_ne h7, Function.update_of_ne h8]
    all_goals rfl

/-- The only end linked at a point is given to another point. -/
theorem Links.steal {s : St K} {X : Set HE} {Y : Set Id} (hL : Links s X Y) {d : HE} {p : Id} (hd : d.1 ∈ s.sid.live)
    (hX : d ∉ X) (hp : p ∈ s.pid.live) (hne : s.vtx (flip d) ≠ p) (hpd : p ≠ s.vtx d)
    (hn : s.next d = some (flip d)) :
    Links { s with vtx := upd s.vtx d p } (insert d X) (insert (s.vtx d) Y) := by
  have hv : ∀ k, k ≠ d → upd s.vtx d p k = s.vtx k := fun k hk => by simp only [upd, Function.update_of_ne hk]
  refine ⟨hL.sids, fun k hk => ?_, fun e he => ?_, fun x hx => ?_⟩
  · by_cases hkd : k = d
    · subst hkd; simpa [upd] using hp
    · simp only [hv k hkd]; exact hL.vlive k hk
  · have h1 := hL.vne e he
    obtain ⟨d1, v⟩ := d
    by_cases hed : e = d1
    · subst hed
      cases v
      · simp only [upd, Function.update_self, Function.update_of_ne (show ((e, true) : HE) ≠ (e, false) by simp)]
        exact fun h => hne h.symm
      · simp only [upd, Function.update_self, Function.update_of_ne (show ((e, false) : HE) ≠ (e, true) by simp)]
        exact hne
    · dsimp only
      rw [hv _ (fun h => hed (by rw [Prod.mk.injEq] at h; exact h.1)),
        hv _ (fun h => hed (by rw [Prod.mk.injEq] at h; exact h.1))]
      exact h1
  · obtain ⟨l, hr, hP⟩ := hL.ring x hx
    by_cases hxd : x = s.vtx d
    · subst hxd
      have hl := hr.unique ((hr.mem d).2 ⟨hd, rfl, hX⟩) hn
      refine ⟨[], ⟨List.nodup_nil, fun k => ?_, Or.inl rfl⟩, fun hY => absurd (Set.mem_insert _ _) hY⟩
      simp only [List.not_mem_nil, false_iff]
      rintro ⟨h1, h2, h3⟩
      simp only [Set.mem_insert_iff, not_or] at h3
      rw [hv k h3.1] at h2
      have := (hr.mem k).2 ⟨h1, h2, h3.2⟩
      rw [hl] at this
      exact h3.1 (by simpa using this)
    · have hm : ∀ k : HE, (k.1 ∈ s.sid.live ∧ upd s.vtx d p k = x ∧ k ∉ insert d X) ↔
          (k.1 ∈ s.sid.live ∧ s.vtx k = x ∧ k ∉ X) := by
        intro k
        by_cases hkd : k = d
        · subst hkd
          simp only [Set.mem_insert_iff, true_or, not_true_eq_false, and_false, false_iff]
          rintro ⟨_, h2, _⟩
          exact hxd h2.symm
        · rw [hv k hkd]
          simp [hkd]
      refine ⟨l, hr.congr hm (fun _ _ => rfl), fun hY => ?_⟩
      simp only [Set.mem_insert_iff, not_or] at hY
      refine ⟨(hP hY.2).non, fun k hk => ?_⟩
      rcases (hP hY.2).som k hk with h1 | ⟨h1, h2, h3, h4⟩
      · exact Or.inl h1
      · have hkd : k ≠ d := fun h => hX (h ▸ h2)
        exact Or.inr ⟨h1, Or.inr h2, h3, by simp only [hv k hkd]; exact h4⟩

/-- A point with no segment forgets a stale stored segment. -/
theorem Links.forget {s : St K} {p : Id} (hL : Links s ∅ {p}) (hp : ∀ k : HE, k.1 ∈ s.sid.live → s.vtx k ≠ p)
    {pp : Id → Option Id} {fp : Id → List Id} :
    Links { s with ppoly := pp, fpts := fp, pseg := upd s.pseg p none } ∅ ∅ := by
  refine ⟨hL.sids, hL.vlive, hL.vne, fun x hx => ?_⟩
  obtain ⟨l, hr, hP⟩ := hL.ring x hx
  refine ⟨l, hr.congr (fun _ => Iff.rfl) (fun _ _ => rfl), fun _ => ?_⟩
  by_cases hxp : x = p
  · subst hxp
    have hl : l = [] := by
      cases l with
      | nil => rfl
      | cons k l =>
        have := (hr.mem k).1 (by simp)
        exact absurd this.2.1 (hp k this.1)
    refine ⟨fun _ => hl, fun d hd => ?_⟩
    simp [upd] at hd
  · refine (hP (by simpa using hxp)).congr ?_ (fun d h1 h2 h3 => ⟨h1, h2, h3⟩)
    simp only [upd, Function.update_of_ne hxp]

/-- What `join_segments` does; `x` is the end of the kept segment at the removed point, `y` the far end of the other. -/
structure JoinSeg (s s' : St K) (x y : HE) : Prop where
  was : x.1 ∈ s.sid.live
  del : s.sid.remove y.1 = .ok s'.sid
  live : ∀ j, j ∈ s'.sid.live ↔ j ≠ y.1 ∧ j ∈ s.sid.live
  ne : x.1 ≠ y.1
  mid : s.vtx (flip y) = s.vtx x
  nx : s.next x = some y
  ny : s.next (flip y) = some (flip x)
  vtx : s'.vtx = upd s.vtx x (s.vtx y)
  nb : s'.next x = if s.next y = some (flip y) then some (flip x) else s.next y
  no : ∀ d : HE, d.1 ≠ y.1 → d.1 ∈ s.sid.live → d ≠ x →
    s'.next d = if s.next d = some (flip y) then some (flip x) else s.next d
  wx : s'.wire x = s.wire y ∨ (s.next y = some (flip y) ∧ s'.wire x = s.wire (x.1, false))
  wo : ∀ d, d ≠ x → s'.wire d = s.wire d
  xy : s'.xy = s.xy
  vec : s'.vec = s.vec
  pid : s'.pid = s.pid
  wid : s'.wid = s.wid
  qid : s'.qid = s.qid
  outer : s'.outer = s.outer
  wpoly : s'.wpoly = s.wpoly
  parent : s'.parent = s.parent
  childs : s'.childs = s.childs
  wseg : ∀ w, (s'.wseg w = s.wseg w ∧ ∀ v, s.wire (y.1, v) = some w → s'.wseg w ≠ some (y.1, v)) ∨
    ∃ v, s.wire (y.1, v) = some w ∧ s.wseg w = some (y.1, v) ∧ s'.wseg w = some (x.1, v)
  table : s'.table = upd (upd (upd (upd (upd s.table (s.vtx (y.1, false), s.vtx (y.1, true)) none)
    (s.vtx (x.1, false), s.vtx (x.1, true)) none) (s'.vtx (x.1, false), s'.vtx (x.1, true)) (some x.1))
    (s.vtx (y.1, false), s.vtx (y.1, true)) none) (s.vtx (y.1, true), s.vtx (y.1, false)) none

theorem delKey_ok {k : Id × Id} {s s' : St K} (h : delKey k s = .ok s') :
    s.table k ≠ none ∧ s' = { s with table := upd s.table k none } := by
  unfold delKey at h
  split at h
  · cases h
  · next h1 =>
    simp only [Except.ok.injEq] at h
    exact ⟨h1, h.symm⟩

theorem fixWireSeg_ok {e0 e1 : Id} {v : Bool} {s s' : St K} (h : fixWireSeg e0 e1 v s = .ok s') :
    ∃ w, s.wire (e1, v) = some w ∧ s' = { s with
      wseg := if s.wseg w = some (e1, v) then upd s.wseg w (some (e0, v)) else s.wseg } := by
  unfold fixWireSeg at h
  simp only [bind_ok, need_ok, Except.ok.injEq] at h
  obtain ⟨w, hw, rfl⟩ := h
  refine ⟨w, hw, ?_⟩
  split <;> rfl

theorem fixWireSegs_ok {e0 e1 : Id} {s s1 s' : St K} (h : fixWireSeg e0 e1 true s = .ok s1)
    (h' : fixWireSeg e0 e1 false s1 = .ok s') (hne : e0 ≠ e1) :
    ∃ ws, s' = { s with wseg := ws } ∧
      ∀ w, (ws w = s.wseg w ∧ ∀ v, s.wire (e1, v) = some w → ws w ≠ some (e1, v)) ∨
        ∃ v, s.wire (e1, v) = some w ∧ s.wseg w = some (e1, v) ∧ ws w = some (e0, v) := by
  obtain ⟨w1, hw1, rfl⟩ := fixWireSeg_ok h
  obtain ⟨w2, hw2, rfl⟩ := fixWireSeg_ok h'
  clear h h'
  dsimp only at hw2
  refine ⟨_, rfl, fun w => ?_⟩
  dsimp only
  have e1n : ((e0, true) : HE) ≠ (e1, false) := by simp
  have key : ∀ ws' : Id → Option HE, (∀ w, (ws' w = s.wseg w ∧ (s.wire (e1, true) = some w → ws' w ≠ some (e1, true))) ∨
      (s.wire (e1, true) = some w ∧ s.wseg w = some (e1, true) ∧ ws' w = some (e0, true))) →
      ((if ws' w2 = some (e1, false) then upd ws' w2 (some (e0, false)) else ws') w = s.wseg w ∧
        ∀ v, s.wire (e1, v) = some w →
          (if ws' w2 = some (e1, false) then upd ws' w2 (some (e0, false)) else ws') w ≠ some (e1, v)) ∨
      ∃ v, s.wire (e1, v) = some w ∧ s.wseg w = some (e1, v) ∧
        (if ws' w2 = some (e1, false) then upd ws' w2 (some (e0, false)) else ws') w = some (e0, v) := by
    intro ws' h1
    split
    · next h2 =>
      by_cases hww : w = w2
      · subst hww
        right
        rcases h1 w with ⟨h3, h4⟩ | ⟨h3, h4, h5⟩
        · exact ⟨false, hw2, h3 ▸ h2, by simp [upd]⟩
        · rw [h2] at h5
          exact absurd (Option.some.inj h5).symm e1n
      · simp only [upd, Function.update_of_ne hww]
        rcases h1 w with ⟨h3, h4⟩ | ⟨h3, h4, h5⟩
        · refine Or.inl ⟨h3, fun v hv => ?_⟩
          cases v
          · rw [hw2] at hv
            exact absurd (Option.some.inj hv).symm hww
          · exact h4 hv
        · exact Or.inr ⟨true, h3, h4, h5⟩
    · next h2 =>
      rcases h1 w with ⟨h3, h4⟩ | ⟨h3, h4, h5⟩
      · refine Or.inl ⟨h3, fun v hv => ?_⟩
        cases v
        · rw [hw2] at hv
          rw [← Option.some.inj hv]
          exact h2
        · exact h4 hv
      · exact Or.inr ⟨true, h3, h4, h5⟩
  refine key _ (fun x => ?_)
  split
  · next h2 =>
    by_cases hx : x = w1
    · subst hx
      exact Or.inr ⟨hw1, h2, by simp [upd]⟩
    · simp only [upd, Function.update_of_ne hx]
      refine Or.inl ⟨trivial, fun hv => ?_⟩
      rw [hw1] at hv
      exact absurd (Option.some.inj hv).symm hx
  · next h2 =>
    refine Or.inl ⟨rfl, fun hv => ?_⟩
    rw [hw1] at hv
    rw [← Option.some.inj hv]
    exact h2

theorem IsRing.two {s : St K} {X : Set HE} {p : Id} {l : List HE} (h : IsRing s X p l) {a b k : HE} (ha : a ∈ l)
    (h1 : s.next a = some (flip b)) (h2 : s.next b = some (flip a)) (hk : k ∈ l) : k = a ∨ k = b := by
  obtain ⟨l', g1, g2, g3⟩ := h.from ha
  obtain ⟨_, y, hy, g4⟩ := g1
  rw [rot_of_next h1, flip_flip] at hy
  obtain rfl := Option.some.inj hy
  have hk' := g2.symm.subset hk
  cases l' with
  | nil => simpa using Or.inl hk'
  | cons z l' =>
    have := path_head g4
    subst this
    obtain ⟨_, y, hy, g5⟩ := g4
    rw [rot_of_next h2, flip_flip] at hy
    obtain rfl := Option.some.inj hy
    cases l' with
    | nil => simpa using hk'
    | cons z' l' =>
      have := path_head g5
      subst this
      simp at g3

theorem disconnectVtx_free' {d : HE} {s s' : St K} (h : disconnectVtx d s = .ok s') (hF : Free T s)
    (hd : s.vtx d ∈ s.pid.live) (hw : T → PolyLive s d.1) : Free T s' := disconnectVtx_free hF hd hw h

theorem destroySegment_free' {e : Id} {s s' : St K} (h : destroySegment e s = .ok s') (hF : Free T s)
    (h0 : s.vtx (e, false) ∈ s.pid.live) (h1 : s.vtx (e, true) ∈ s.pid.live) (hw : T → PolyLive s e) : Free T s' :=
  destroySegment_free hF h0 h1 hw h

theorem connectEnd_free {d : HE} {bi : Option Ins} {e : Id} {w : Option Id} {s s' : St K}
    (h : connectEnd d bi e w s = .ok s') (hF : Free T s) : Free T s' := by
  cases bi with
  | none =>
    simp only [connectEnd, bind_ok] at h
    obtain ⟨_, _, h⟩ := h
    exact connectFree_free hF h
  | some i => exact connectVtx_free hF h

theorem connectEnd_eff {x : HE} {bi : Option Ins} {e : Id} {w : Option Id} {s s' : St K} {X : Set HE} {Y : Set Id}
    (h : connectEnd x bi e w s = .ok s') (hL : Links s X Y) (hx : x.1 ∈ s.sid.live) (hX : x ∈ X) (hY : s.vtx x ∉ Y)
    (hbi : (bi = none ∧ (∀ k : HE, k.1 ∈ s.sid.live → s.vtx k = s.vtx x → k ∈ X) ∧ s.pseg (s.vtx x) = none) ∨
      ∃ r k w', bi = some (r, k, w') ∧ r.1 ∈ s.sid.live ∧ s.vtx r = s.vtx x ∧ r ∉ X ∧ s.next r = some k) :
    ∃ pp fp ps N W, s' = { s with ppoly := pp, fpts := fp, pseg := ps, next := N, wire := W } ∧ Links s' (X \ {x}) Y ∧
      ((bi = none ∧ ps = upd s.pseg (s.vtx x) (some x) ∧ N = upd s.next x (some (flip x)) ∧ W = upd s.wire x w) ∨
        ∃ r k w', bi = some (r, k, w') ∧ ps = s.pseg ∧ N = upd (upd s.next x (some k)) r (some (flip x)) ∧
          W = upd s.wire x w') := by
  rcases hbi with ⟨rfl, h1, h2⟩ | ⟨r, k, w', rfl, h1, h2, h3, h4⟩
  · simp only [connectEnd, bind_ok] at h
    obtain ⟨_, _, h⟩ := h
    obtain ⟨pp, fp, rfl, hL'⟩ := connectFree_eff h hL hx hX h1 (Or.inl h2)
    exact ⟨_, _, _, _, _, rfl, hL', Or.inl ⟨rfl, rfl, rfl, rfl⟩⟩
  · obtain ⟨rfl, hL'⟩ := connectVtx_eff h hL hx hX hY h1 h2 h3 h4
    exact ⟨s.ppoly, s.fpts, s.pseg, _, _, rfl, hL', Or.inr ⟨r, k, w', rfl, rfl, rfl, rfl⟩⟩

theorem upd_same {α β : Type} [DecidableEq α] {f : α → β} {a : α} {b : β} (h : f a = b) : upd f a b = f := by
  subst h
  exact Function.update_eq_self _ _

theorem joinSegments_eff {mid e0 e1 : Id} {s s' : St K} (h : joinSegments mid e0 e1 s = .ok s') (hL : Links s ∅ ∅)
    (h0 : e0 ∈ s.sid.live) (h1 : e1 ∈ s.sid.live) (hne : e0 ≠ e1)
    (hm0 : s.vtx (e0, false) = mid ∨ s.vtx (e0, true) = mid) (hm1 : s.vtx (e1, false) = mid ∨ s.vtx (e1, true) = mid)
    (hAB : ∀ v w, s.vtx (e0, v) ≠ mid → s.vtx (e1, w) ≠ mid → s.vtx (e0, v) ≠ s.vtx (e1, w))
    (hF : Free T s)
    (hP : T → ∀ d : HE, d.1 ∈ s.sid.live → ∀ w q, s.wire d = some w → s.wpoly w = some q → q ∈ s.qid.live) :
    Links s' ∅ ∅ ∧ Free T s' ∧ ∃ x y : HE, x.1 = e0 ∧ y.1 = e1 ∧ s.vtx x = mid ∧ JoinSeg s s' x y ∧
      s'.pseg mid = none := by
  unfold joinSegments at h
  simp only [bind_ok, check_ok, Except.ok.injEq] at h
  obtain ⟨s1, k1, s2, k0, _, c1, _, c2, bi, hbi, s3, h3, s4, h4, p, hp, s5, h5, s6, h6, s7, h7, s8, h8, q, hq, h9⟩ := h
  obtain ⟨_, rfl⟩ := delKey_ok k1
  obtain ⟨_, rfl⟩ := delKey_ok k0
  clear k1 k0
  dsimp only at c1 c2 hbi h3
  have hvx : s.vtx (e0, if s.vtx (e0, true) = mid then true else false) = mid := by
    split
    · next h => exact h
    · next h => exact hm0.resolve_right h
  have hvy : s.vtx (e1, !(if s.vtx (e1, false) = mid then true else false)) = mid := by
    split
    · next h => exact h
    · next h => exact hm1.resolve_left h
  generalize (if s.vtx (e0, true) = mid then true else false) = in0 at *
  generalize (if s.vtx (e1, false) = mid then true else false) = in1 at *
  have hvyB : s.vtx (e1, in1) ≠ mid := by
    rw [← hvy]
    exact fun h => hL.flip_ne (d := (e1, in1)) h1 h.symm
  have hvxA : s.vtx (e0, !in0) ≠ mid := by
    rw [← hvx]
    exact hL.flip_ne (d := (e0, in0)) h0
  have hAB' := hAB _ _ hvxA hvyB
  clear hAB hm0 hm1
  have hbi' := vtxInsertInfo_ok hbi (hL.frame rfl rfl rfl rfl rfl) h1
  clear hbi
  dsimp only at hbi'
  have b1 : ((e0, in0) : HE) ≠ (e1, in1) := fun h => hne (Prod.mk.inj h).1
  have b2 : ((e0, in0) : HE) ≠ (e1, !in1) := fun h => hne (Prod.mk.inj h).1
  have b3 : ((e1, in1) : HE) ≠ (e1, !in1) := by simp
  have hF3 : Free T s3 := by
    refine disconnectVtx_free' h3 ?_ (hL.vlive (e1, in1) h1) ?_
    · exact hF.congr rfl rfl rfl rfl rfl
    · exact fun hT => hP hT (e1, true) h1
  obtain ⟨r, pp, fp, o, d1, d2, d3, d6, rfl, hL3, d4, d5⟩ := disconnectVtx_eff h3 (hL.frame rfl rfl rfl rfl rfl)
    (d := (e1, in1)) h1 (by simp) (by simp)
  clear h3
  dsimp only [flip_mk] at d1 d2 d3 d5 hL3 hF3 h4 hp h5
  have r1 : r ≠ (e0, in0) := by
    rintro rfl
    rw [d1] at c1
    exact b3 (Option.some.inj c1).symm
  have r2 : r ≠ (e1, !in1) := by
    rintro rfl
    exact hvyB (d3 ▸ hvy)
  have n0 : upd (upd s.next r (s.next (e1, in1))) (e1, in1) (some (e1, !in1)) (e0, in0) = some (e1, in1) := by
    simp only [upd, Function.update_of_ne b1, Function.update_of_ne r1.symm, c1]
  have n1 : upd (upd s.next r (s.next (e1, in1))) (e1, in1) (some (e1, !in1)) (e1, !in1) = some (e0, !in0) := by
    simp only [upd, Function.update_of_ne b3.symm, Function.update_of_ne r2.symm, c2]
  have hF4 : Free T s4 := by
    refine disconnectVtx_free' h4 hF3 (hL.vlive (e1, !in1) h1) ?_
    exact fun hT => hP hT (e1, true) h1
  obtain ⟨r', pp', fp', o', f1, f2, f3, f6, rfl, hL4, f4, f5⟩ := disconnectVtx_eff h4 hL3
    (d := (e1, !in1)) h1 (by simp) (by simp)
  dsimp only [flip_mk] at f1 f2 f3 f5 hL4 hF4 hp h5
  rw [Bool.not_not] at f1 f5 hL4 hp h5
  have hr' : r' = (e0, in0) := hL3.next_inj f2 h0 f6 (by simpa using b1) (f1.trans n0.symm)
  subst hr'
  rw [n1] at hL4 hp h5 f5
  clear h4 hL3 hF3
  have ho' : o' ≠ none := by
    intro h
    have := Option.some.inj (f5.1 h)
    exact hne (Prod.mk.inj this).1
  have hN : upd (upd (upd (upd s.next r (s.next (e1, in1))) (e1, in1) (some (e1, !in1))) (e0, in0) (some (e0, !in0)))
      (e1, !in1) (some (e1, in1)) (e0, in0) = some (e0, !in0) := by
    simp only [upd, Function.update_of_ne b2, Function.update_self]
  obtain ⟨l, hring, _⟩ := hL4.ring mid (hvx ▸ hL.vlive (e0, in0) h0)
  have hdl := (hring.mem (e0, in0)).2 ⟨h0, hvx, by
    simp only [Set.mem_insert_iff, Set.mem_empty_iff_false, or_false, not_or]
    exact ⟨b2, b1⟩⟩
  obtain ⟨p', g1, g2, g3⟩ := previous_ring hL4.sids hring hdl
  dsimp only [flip_mk] at g2 g3
  rw [hp, Except.ok.injEq] at g2
  subst g2
  have hpx : p = (e0, in0) := by
    have hp' := (hring.mem p).1 g1
    exact hL4.next_inj hp'.1 h0 hp'.2.2 ((hring.mem _).1 hdl).2.2 (g3.trans hN.symm)
  subst hpx
  clear g1 g3 hp hring hdl
  rw [hN, upd_same hN, upd_same hN] at h5
  have hNy : s.next (e1, in1) ≠ some (e1, !in1) → upd (upd (upd (upd s.next r (s.next (e1, in1))) (e1, in1)
      (some (e1, !in1))) (e0, in0) (some (e0, !in0))) (e1, !in1) (some (e1, in1)) r = s.next (e1, in1) := by
    intro hh
    have r3 : r ≠ (e1, in1) := fun h => hh (h ▸ d1)
    simp only [upd, Function.update_of_ne r2, Function.update_of_ne r1, Function.update_of_ne r3, Function.update_self]
  have hNo : ∀ d : HE, d ≠ r → d.1 ≠ e1 → d ≠ (e0, in0) → upd (upd (upd (upd s.next r (s.next (e1, in1))) (e1, in1)
      (some (e1, !in1))) (e0, in0) (some (e0, !in0))) (e1, !in1) (some (e1, in1)) d = s.next d := by
    intro d hd1 hd2 hd3
    have e1' : d ≠ (e1, in1) := fun h => hd2 (h ▸ rfl)
    have e2' : d ≠ (e1, !in1) := fun h => hd2 (h ▸ rfl)
    simp only [upd, Function.update_of_ne hd1, Function.update_of_ne hd3, Function.update_of_ne e1', Function.update_of_ne e2']
  generalize upd (upd (upd (upd s.next r (s.next (e1, in1))) (e1, in1) (some (e1, !in1))) (e0, in0) (some (e0, !in0)))
    (e1, !in1) (some (e1, in1)) = N at *
  have hPB : upd (upd s.pseg (s.vtx (e1, in1)) o) (s.vtx (e1, !in1)) o' (s.vtx (e1, in1)) = o := by
    have : s.vtx (e1, in1) ≠ s.vtx (e1, !in1) := by rw [hvy]; exact hvyB
    simp only [upd, Function.update_of_ne this, Function.update_self]
  have hPm : upd (upd s.pseg (s.vtx (e1, in1)) o) (s.vtx (e1, !in1)) o' mid = o' := by
    rw [← hvy]; simp only [upd, Function.update_self]
  generalize upd (upd s.pseg (s.vtx (e1, in1)) o) (s.vtx (e1, !in1)) o' = P at *
  have hL5 := hL4.steal (d := (e0, in0)) (p := s.vtx (e1, in1)) h0 (by simp [hne]) (hL.vlive (e1, in1) h1) hAB'
    (by dsimp only; rw [hvx]; exact hvyB) hN
  dsimp only at hL5
  clear hL4
  dsimp only [flip_mk] at hbi'
  have hVx : upd s.vtx (e0, in0) (s.vtx (e1, in1)) (e0, in0) = s.vtx (e1, in1) := by simp only [upd, Function.update_self]
  have hVo : ∀ k : HE, k ≠ (e0, in0) → upd s.vtx (e0, in0) (s.vtx (e1, in1)) k = s.vtx k := fun k hk => by
    simp only [upd, Function.update_of_ne hk]
  generalize hV : upd s.vtx (e0, in0) (s.vtx (e1, in1)) = V at *
  have hbc : (bi = none ∧ (∀ k : HE, k.1 ∈ s.sid.live → V k = V (e0, in0) →
        k ∈ insert (e0, in0) (insert (e1, !in1) (insert (e1, in1) (∅ : Set HE)))) ∧ P (V (e0, in0)) = none ∧
        s.next (e1, in1) = some (e1, !in1)) ∨
      ∃ k, bi = some (r, k, s.wire (e1, in1)) ∧ V r = V (e0, in0) ∧
        r ∉ insert (e0, in0) (insert (e1, !in1) (insert (e1, in1) (∅ : Set HE))) ∧ N r = some k ∧
        s.next (e1, in1) = some k ∧ s.next (e1, in1) ≠ some (e1, !in1) := by
    rcases hbi' with ⟨q1, q2⟩ | ⟨r2', k, q1, q2, q3, q4, q5, q6⟩
    · refine Or.inl ⟨q1, fun k hk hkv => ?_, ?_, q2⟩
      · by_cases hkx : k = (e0, in0)
        · exact Or.inl hkx
        · rw [hVo k hkx, hVx] at hkv
          have := hL.tip_only (d := (e1, in1)) (k := k) h1 hk q2 hkv
          subst this
          exact Or.inr (Or.inr (Or.inl rfl))
      · rw [hVx, hPB]
        exact d5.2 q2
    · have hrr : r2' = r := hL.next_inj q5 d2 (by simp) (by simp) (q4.trans d1.symm)
      subst hrr
      have hny : s.next (e1, in1) ≠ some (e1, !in1) := by
        rw [q2]
        intro h
        exact q3 (by rw [Option.some.inj h])
      refine Or.inr ⟨k, q1, ?_, ?_, ?_, q2, hny⟩
      · rw [hVo _ r1, hVx]
        exact q6
      · rintro (h | h | h | h)
        · exact r1 h
        · exact r2 h
        · rw [h] at d1
          exact hny d1
        · exact h
      · rw [hNy hny]
        exact q2
  clear hbi'
  have hF5 : Free T s5 := by
    refine connectEnd_free h5 ?_
    exact hF4.congr rfl rfl rfl rfl rfl
  obtain ⟨pp5, fp5, ps5, N5, W5, rfl, hL6, hc⟩ := connectEnd_eff h5 hL5 h0 (Set.mem_insert _ _) (by
    dsimp only
    rw [hVx, hvx]
    simpa using hvyB) (by
    dsimp only
    rcases hbc with ⟨u1, u2, u3, _⟩ | ⟨k, u1, u2, u3, u4, _⟩
    · exact Or.inl ⟨u1, u2, u3⟩
    · exact Or.inr ⟨r, k, _, u1, d2, u2, u3, u4⟩)
  clear h5 hL5 hF4
  dsimp only at hL6 hF5 hc h6
  have hc' : (∃ k, ps5 (s.vtx (e1, in1)) = some k ∧ k.1 ≠ e1) ∧ ps5 mid = o' ∧
      N5 (e0, in0) = (if s.next (e1, in1) = some (e1, !in1) then some (e0, !in0) else s.next (e1, in1)) ∧
      (∀ d : HE, d.1 ≠ e1 → d.1 ∈ s.sid.live → d ≠ (e0, in0) →
        N5 d = if s.next d = some (e1, !in1) then some (e0, !in0) else s.next d) ∧
      (W5 (e0, in0) = s.wire (e1, in1) ∨
        (s.next (e1, in1) = some (e1, !in1) ∧ W5 (e0, in0) = s.wire (e0, false))) ∧ ∀ d, d ≠ (e0, in0) → W5 d = s.wire d := by
    have hru : ∀ d : HE, d.1 ∈ s.sid.live → s.next d = some (e1, !in1) → d = r := fun d hd hh =>
      hL.next_inj hd d2 (by simp) (by simp) (hh.trans d1.symm)
    rcases hbc with ⟨u1, u2, u3, u4⟩ | ⟨k, u1, u2, u3, u4, u5, u6⟩ <;>
      rcases hc with ⟨v1, rfl, rfl, rfl⟩ | ⟨r0, k0, w0, v1, rfl, rfl, rfl⟩ <;> rw [u1] at v1
    · refine ⟨⟨(e0, in0), ?_, hne⟩, ?_, ?_, fun d z1 z2 z3 => ?_, ?_, fun d z => ?_⟩
      · rw [hVx]; simp only [upd, Function.update_self]
      · rw [hVx]; simp only [upd, Function.update_of_ne hvyB.symm]; exact hPm
      · rw [if_pos u4]; simp only [upd, Function.update_self, flip_mk]
      · simp only [upd, Function.update_of_ne z3]
        have hdr : d ≠ r := by
          rintro rfl
          have := hL.next_inj z2 h1 (by simp) (by simp) (d1.trans u4.symm)
          exact z1 (by rw [this])
        rw [hNo d hdr z1 z3, if_neg]
        exact fun h => hdr (hru d z2 h)
      · right; exact ⟨u4, by simp only [upd, Function.update_self]⟩
      · simp only [upd, Function.update_of_ne z]
    · cases v1
    · cases v1
    · simp only [Option.some.injEq, Prod.mk.injEq] at v1
      obtain ⟨rfl, rfl, rfl⟩ := v1
      refine ⟨?_, hPm, ?_, fun d z1 z2 z3 => ?_, ?_, fun d z => ?_⟩
      · rw [hPB]
        cases o with
        | none => exact absurd (d5.1 rfl) u6
        | some k' => exact ⟨k', rfl, d4 k' rfl⟩
      · rw [if_neg u6]; simp only [upd, Function.update_of_ne r1.symm, Function.update_self, u5]
      · by_cases hdr : d = r
        · subst hdr
          rw [if_pos d1]; simp only [upd, Function.update_self, flip_mk]
        · rw [if_neg (fun h => hdr (hru d z2 h))]
          simp only [upd, Function.update_of_ne hdr, Function.update_of_ne z3]
          exact hNo d hdr z1 z3
      · left; simp only [upd, Function.update_self]
      · simp only [upd, Function.update_of_ne z]
  clear hc hbc
  obtain ⟨⟨kB, hkB, hkB'⟩, hpsm, hNx', hNo', hWx, hWo⟩ := hc'
  obtain ⟨ws, rfl, hws⟩ := fixWireSegs_ok h6 h7 hne
  clear h6 h7
  dsimp only at hws h8
  have hPW : T → ∀ d : HE, d.1 ∈ s.sid.live → ∀ w q, W5 d = some w → s.wpoly w = some q → q ∈ s.qid.live := by
    intro hT d hd w q hw hq
    by_cases hdx : d = (e0, in0)
    · subst hdx
      rcases hWx with hh | ⟨_, hh⟩
      · exact hP hT (e1, in1) h1 w q (hh ▸ hw) hq
      · exact hP hT (e0, false) h0 w q (hh ▸ hw) hq
    · exact hP hT d hd w q (hWo d hdx ▸ hw) hq
  have hVe : ∀ v, V (e1, v) = s.vtx (e1, v) := fun v => hVo _ (fun h => hne (Prod.mk.inj h).1.symm)
  have hF8 : Free T s8 := by
    refine destroySegment_free' h8 ?_ ?_ ?_ ?_
    · exact hF5.congr rfl rfl rfl rfl rfl
    · dsimp only; rw [hVe]; exact hL.vlive (e1, false) h1
    · dsimp only; rw [hVe]; exact hL.vlive (e1, true) h1
    · exact fun hT => hPW hT (e1, true) h1
  have hX6 : insert (e0, in0) (insert (e1, !in1) (insert (e1, in1) (∅ : Set HE))) \ {(e0, in0)} = {d : HE | d.1 = e1} := by
    ext ⟨a, b⟩
    simp only [Set.mem_diff, Set.mem_insert_iff, Prod.mk.injEq, Set.mem_empty_iff_false, or_false, Set.mem_singleton_iff,
      Set.mem_setOf_eq]
    constructor
    · rintro ⟨h | h | h, h'⟩
      · exact absurd h h'
      · exact h.1
      · exact h.1
    · rintro rfl
      refine ⟨Or.inr ?_, fun h => hne h.1.symm⟩
      cases b <;> cases in1 <;> simp
  rw [hX6, hvx] at hL6
  have hE : ∀ v, EndOk { s with
      table := upd (upd s.table (s.vtx (e1, false), s.vtx (e1, true)) none) (s.vtx (e0, false), s.vtx (e0, true)) none
      ppoly := pp5
      fpts := fp5
      pseg := ps5
      next := N5
      vtx := V
      wire := W5 } {d : HE | d.1 = e1} (insert mid ∅) (e1, v) := by
    intro v
    refine Or.inl ⟨rfl, fun k hk => ?_⟩
    dsimp only at hk
    rw [hVe] at hk
    by_cases hv : v = in1
    · subst hv
      rw [hkB] at hk
      rw [← Option.some.inj hk]
      exact hkB'
    · have : v = !in1 := by cases v <;> cases in1 <;> simp_all
      subst this
      rw [hvy, hpsm] at hk
      exact f4 k hk
  obtain ⟨pp8, fp8, ps8, m, rfl, hm, hL8, hp8, hq8⟩ := destroySegment_eff h8 (hL6.frame rfl rfl rfl rfl rfl) h1
    ((hE false).frame rfl rfl rfl) ((hE true).frame rfl rfl rfl)
  clear h8 hE hL6 hF5
  dsimp only at hm hL8 hF8 hq h9
  obtain ⟨_, _, _, hlive⟩ := Ids.remove_ok hL.sids hm
  have hL9 := hL8.drop (fun d hd hl => ((hlive d.1).1 hl).1 hd)
  rw [LawfulSingleton.insert_empty_eq] at hL9
  have hml : mid ∈ s.pid.live := hvx ▸ hL.vlive (e0, in0) h0
  have hF9 := (setPolygon_free hF8 hml (fun hT => by
    unfold polyAt at hq
    simp only [bind_ok, need_ok] at hq
    obtain ⟨w, hw1, hw2⟩ := hq
    exact hPW hT (e0, true) h0 w q hw1 hw2) h9).1
  obtain ⟨pp9, fp9, rfl⟩ := setPolygon_eq h9
  clear h9 hL8 hF8
  have hno : ∀ k : HE, k.1 ∈ s.sid.live → k ≠ (e0, in0) → k.1 ≠ e1 → s.vtx k ≠ mid := by
    intro k hk hkx hke hkm
    obtain ⟨l2, hring2, _⟩ := hL.ring mid hml
    have m1 := (hring2.mem k).2 ⟨hk, hkm, by simp⟩
    have m2 := (hring2.mem (e0, in0)).2 ⟨h0, hvx, by simp⟩
    have m3 := (hring2.mem (e1, !in1)).2 ⟨h1, hvy, by simp⟩
    exact hring2.two m2 (b := (e1, !in1)) (by simpa using c1) (by simpa using c2) m1 |>.elim hkx (fun h => hke (by rw [h]))
  refine ⟨?_, hF9, (e0, in0), (e1, in1), rfl, rfl, hvx, ?_, ?_⟩
  · refine hL9.forget (fun k hk hkm => ?_)
    dsimp only at hk hkm
    obtain ⟨z1, z2⟩ := (hlive k.1).1 hk
    by_cases hkx : k = (e0, in0)
    · rw [hkx, hVx] at hkm
      exact hvyB hkm
    · rw [hVo k hkx] at hkm
      exact hno k z2 hkx z1 hkm
  · refine ⟨h0, hm, hlive, hne, hvy.trans hvx.symm, c1, c2, hV.symm, hNx', hNo', hWx, hWo, rfl, rfl, rfl, rfl, rfl, rfl, rfl, rfl,
      rfl, ?_, ?_⟩
    · intro w
      have := hws w
      simp only [hWo _ (show ((e1, true) : HE) ≠ (e0, in0) from fun h => hne (Prod.mk.inj h).1.symm),
        hWo _ (show ((e1, false) : HE) ≠ (e0, in0) from fun h => hne (Prod.mk.inj h).1.symm), Bool.forall_bool, Bool.exists_bool] at this ⊢
      exact this
    · dsimp only
      rw [hVe, hVe]
  · simp only [upd, Function.update_self]

end Verif.Decomp
