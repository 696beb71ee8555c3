import Verif.Decomp.Keep

/-! What `last_polygon_change` tells about the polygons on the sides of segments. -/
namespace Verif.Decomp

variable {K : Type}

/-- The polygon on a side of a segment: `seg.wire[side].polygon` (merge.py:127-140). -/
def sidePoly (s : St K) (d : HE) : Option Id := (s.wire d).bind s.wpoly

theorem sidePoly_of {s : St K} {d : HE} {w : Id} (h : s.wire d = some w) : sidePoly s d = s.wpoly w := by
  unfold sidePoly
  rw [h]
  rfl

/-- The change `c` reported when `s` became `s'` by a new segment `e` tells what happened to the polygons. -/
def TrueNew (s s' : St K) (e : Id) : Change → Prop
  | .split q q' => q ∈ s.qid.live ∧ q' ∉ s.qid.live ∧ (∀ x, x ∈ s'.qid.live ↔ x ∈ s.qid.live ∨ x = q') ∧
      (∃ v, sidePoly s' (e, v) = some q ∧ sidePoly s' (e, !v) = some q') ∧
      (∀ d : HE, d.1 ∈ s.sid.live → (sidePoly s d ≠ some q → sidePoly s' d = sidePoly s d) ∧
        (sidePoly s d = some q → sidePoly s' d = some q ∨ sidePoly s' d = some q')) ∧
      s'.parent (s'.outer q) = s'.parent (s'.outer q')
  | .add q q' => q ∈ s.qid.live ∧ q' ∉ s.qid.live ∧ (∀ x, x ∈ s'.qid.live ↔ x ∈ s.qid.live ∨ x = q') ∧
      (∃ v, sidePoly s' (e, v) = some q ∧ sidePoly s' (e, !v) = some q') ∧
      (∀ d : HE, d.1 ∈ s.sid.live → (sidePoly s d ≠ some q → sidePoly s' d = sidePoly s d) ∧
        (sidePoly s d = some q → sidePoly s' d = some q ∨ sidePoly s' d = some q')) ∧
      ∃ w, s'.parent (s'.outer q') = some w ∧ s'.wpoly w = some q ∧ w ≠ s'.outer q
  | .none => s'.qid = s.qid ∧ (∀ d : HE, d.1 ∈ s.sid.live → sidePoly s' d = sidePoly s d) ∧
      (e ∉ s.sid.live → sidePoly s' (e, true) = sidePoly s' (e, false))
  | .shape _ => s'.qid = s.qid ∧ (∀ d : HE, d.1 ∈ s.sid.live → sidePoly s' d = sidePoly s d) ∧
      (e ∉ s.sid.live → sidePoly s' (e, true) = sidePoly s' (e, false))
  | _ => False

/-- The change `c` reported when `s` became `s'` by removal of the segment `e` tells what happened to the polygons. -/
def TrueDel (s s' : St K) (e : Id) : Change → Prop
  | .join q q' => q ∈ s.qid.live ∧ q' ∈ s.qid.live ∧ (∀ x, x ∈ s'.qid.live ↔ x ∈ s.qid.live ∧ x ≠ q') ∧
      (∃ v, sidePoly s (e, v) = some q ∧ sidePoly s (e, !v) = some q') ∧
      (∀ d : HE, d.1 ∈ s'.sid.live → sidePoly s' d = if sidePoly s d = some q' then some q else sidePoly s d) ∧
      s.parent (s.outer q) = s.parent (s.outer q')
  | .remove q q' => q ∈ s.qid.live ∧ q' ∈ s.qid.live ∧ (∀ x, x ∈ s'.qid.live ↔ x ∈ s.qid.live ∧ x ≠ q') ∧
      (∃ v, sidePoly s (e, v) = some q ∧ sidePoly s (e, !v) = some q') ∧
      (∀ d : HE, d.1 ∈ s'.sid.live → sidePoly s' d = if sidePoly s d = some q' then some q else sidePoly s d) ∧
      ∃ w, s.parent (s.outer q') = some w ∧ s.wpoly w = some q ∧ w ≠ s.outer q
  | .none => s'.qid = s.qid ∧ ∀ d : HE, d.1 ∈ s'.sid.live → sidePoly s' d = sidePoly s d
  | .shape _ => s'.qid = s.qid ∧ ∀ d : HE, d.1 ∈ s'.sid.live → sidePoly s' d = sidePoly s d
  | _ => False

theorem TrueNew.of_quiet {s s' : St K} {e : Id} {c : Change} (h : TrueNew (quiet s) s' e c) : TrueNew s s' e c := by
  cases c <;> exact h

theorem TrueDel.of_quiet {s s' : St K} {e : Id} {c : Change} (h : TrueDel (quiet s) s' e c) : TrueDel s s' e c := by
  cases c <;> exact h

variable [Field K]

theorem side_keep {s s' : St K} {d : HE} (h1 : s'.wire d = s.wire d) (h2 : ∀ w, s.wire d = some w → s'.wpoly w = s.wpoly w) :
    sidePoly s' d = sidePoly s d := by
  unfold sidePoly
  rw [h1]
  cases h : s.wire d with
  | none => rfl
  | some w => exact h2 w h

theorem joinWires_fold {a b e : Id} {ia ib : Ins} {s s' : St K} (hs : joinWires a b ia ib s = .ok (e, s')) (h : Nested s)
    (hW' : Wires s') (ha : a ∈ s.pid.live) (hb : b ∈ s.pid.live) (hCa : Corner s a ia) (hCb : Corner s b ib) :
    s'.qid = s.qid ∧ (∀ d : HE, d.1 ∈ s.sid.live → sidePoly s' d = sidePoly s d) ∧ s'.wire (e, true) = s'.wire (e, false) := by
  obtain ⟨hA, _, hF, hS, aw, bw, q, keep, rm, l, rp, k1, k2, k3, p1, p2, k4, k5, k5', k6, k7, k8, k9, r1, r2, r3, k10, k11, _, _⟩ :=
      joinWires_eff hs h.inv.links ha hb h.free hCa hCb
  refine ⟨r1, fun d hd => ?_, ?_⟩
  swap
  · rw [k7]
    refine k8 ?_
    rcases k4 with ⟨rfl, rfl, _⟩ | ⟨rfl, rfl, _⟩
    · refine Or.inl ?_
      have gbw : s.wire ib.1 = some rm := hCb.wir.symm.trans k2
      obtain ⟨_, gb, gbl, gb0⟩ := h.wires.lab ib.1 hCb.live
      obtain rfl := Option.some.inj (gbw.symm.trans gb)
      rcases k5 with ⟨hn, _⟩ | ⟨_, hl, ⟨_, hP, _⟩ | ⟨hh, _⟩⟩
      · exact absurd hn (h.wires.par _ gbl gb0)
      · cases l with
        | nil => exact absurd rfl hl
        | cons x l => rw [hP.1]; simp
      · exact absurd hh.symm k3
    · exact Or.inr rfl
  have hne : d.1 ≠ e := fun hh => hA.fresh (hh ▸ hd)
  have hpk : s.wpoly keep = some q ∧ s.wpoly rm = some q := by
    rcases k4 with ⟨rfl, rfl, _⟩ | ⟨rfl, rfl, _⟩
    · exact ⟨p1, p2⟩
    · exact ⟨p2, p1⟩
  have hd' := k6 d hne
  by_cases hl : d ∈ l
  · rw [if_pos hl] at hd'
    rw [sidePoly_of hd', sidePoly_of (k5' d hl hne), r3, hpk.1, hpk.2]
  · rw [if_neg hl] at hd'
    exact side_keep hd' fun w _ => by rw [r3]

section
variable [LinearOrder K] {g : Geom K}

/-- Polygons of the wires after a cut. -/
theorem cut_polys {e a b : Id} {ia ib : Ins} {ow lw q q' : Id} {l : List HE} {s s1 s2 : St K}
    (hS : SplitPoly s s1 e a b ia ib ow lw q q' l) (hqq : q ≠ q') (hs : cut g q q' ow lw s1 = .ok s2) :
    s2.qid = s1.qid ∧ s2.outer q = s.outer q ∧ (∀ w, w ≠ ow → w ≠ lw → s2.wpoly w = s.wpoly w) ∧
      (∀ w, w = ow ∨ w = lw → s2.wpoly w = some q ∨ s2.wpoly w = some q') ∧
      ((s2.change = .split q q' ∧ s2.outer q = ow ∧ s2.outer q' = lw) ∨
        (s2.change = .add q q' ∧ s2.outer q ≠ ow ∧ (s2.outer q' = ow ∨ s2.outer q' = lw) ∧ s1.parent ow = some (s.outer q))) := by
  have hoq : s1.outer q = s.outer q := by rw [hS.outer]; simp only [upd, Function.update_of_ne hqq]
  unfold cut at hs
  split at hs
  · next ho =>
    obtain ⟨C, rfl⟩ := cutOuter_eq hs
    refine ⟨rfl, hoq, fun w h1 h2 => ?_, fun w hw => ?_, Or.inl ⟨rfl, ho, ?_⟩⟩
    · show s1.wpoly w = _
      rw [hS.wpoly]
      simp [upd, Function.update_of_ne h2]
    · show s1.wpoly w = _ ∨ s1.wpoly w = _
      rw [hS.wpoly]
      rcases hw with rfl | rfl
      · simp [upd, Function.update_of_ne hS.ne, hS.poly]
      · simp [upd]
    · show s1.outer q' = lw
      rw [hS.outer]
      simp [upd]
  · next ho =>
    obtain ⟨iw, uw, C, inR, hiu, _, hpo, rfl⟩ := cutHole_eq hs
    have hiu' : (iw = ow ∧ uw = lw) ∨ (iw = lw ∧ uw = ow) := by
      rcases hiu with ⟨_, k⟩ | ⟨_, k⟩
      · exact Or.inr k
      · exact Or.inl k
    have hq2 : upd s1.outer q' iw q = s.outer q := by simp only [upd, Function.update_of_ne hqq]; exact hoq
    refine ⟨rfl, hq2, fun w h1 h2 => ?_, fun w hw => ?_, Or.inr ⟨rfl, ?_, ?_, hoq ▸ hpo⟩⟩
    · have hwi : w ≠ iw := by rcases hiu' with ⟨rfl, rfl⟩ | ⟨rfl, rfl⟩ <;> assumption
      have hwu : w ≠ uw := by rcases hiu' with ⟨rfl, rfl⟩ | ⟨rfl, rfl⟩ <;> assumption
      simp only [upd, Function.update_of_ne hwi, Function.update_of_ne hwu]
      rw [hS.wpoly]
      simp [upd, Function.update_of_ne h2]
    · have hw' : w = iw ∨ w = uw := by
        rcases hiu' with ⟨rfl, rfl⟩ | ⟨rfl, rfl⟩
        · exact hw
        · exact hw.symm
      by_cases hwi : w = iw
      · simp [upd, hwi]
      · have hwu := hw'.resolve_left hwi
        refine Or.inl ?_
        simp only [upd, Function.update_of_ne hwi, hwu, Function.update_self]
        rw [hwu] at hwi
        simp only [Function.update_of_ne hwi, Function.update_self]
    · show upd s1.outer q' iw q ≠ ow
      rw [hq2, ← hoq]
      exact ho
    · show upd s1.outer q' iw q' = ow ∨ upd s1.outer q' iw q' = lw
      simp only [upd, Function.update_self]
      rcases hiu' with ⟨rfl, _⟩ | ⟨rfl, _⟩
      · exact Or.inl rfl
      · exact Or.inr rfl

theorem splitPoly_true {a b e : Id} {ia ib : Ins} {s s' : St K} (hs : splitPoly g a b ia ib s = .ok (e, s')) (h : Nested s)
    (h' : Nested s') (ha : a ∈ s.pid.live) (hb : b ∈ s.pid.live) (hCa : Corner s a ia) (hCb : Corner s b ib) :
    TrueNew s s' e s'.change := by
  obtain ⟨ow, lw, q, q', l, s1, s2, s3, hS, hF1, k1, k2, k3⟩ :=
    splitPoly_start hs h.inv.links ha hb h.free (fun _ => h.inv.qids) hCa hCb
  obtain ⟨hW1, hp⟩ := splitPoly_wires h.wires h.inv.wids hS hCa hCb
  obtain ⟨o1, o2, l1, l2, q1, q2, hwl, hql⟩ := hS.lives h hCa
  have hqq : q ≠ q' := fun hh => q2 (hh ▸ q1)
  obtain ⟨hu2, hn2, _⟩ := cut_nested hS h hW1 hCa k1
  obtain ⟨c1, c2, c3, c4, c5⟩ := cut_polys hS hqq k1
  have hsame := splitPoints_same k2
  obtain ⟨_, _, P0, C0, Q0, O0, pp0, fp0, c0, hall⟩ := splitPoly_rest hF1 (fun _ => (hql _).2 (Or.inr rfl)) k1 k2 k3
  have hw' : s'.wire = s1.wire ∧ s'.sid = s1.sid ∧ s'.qid = s1.qid := by rw [hall]; exact ⟨rfl, rfl, rfl⟩
  have hu3 := hu2.same hsame
  obtain ⟨P, C, Q, hs', hPQ⟩ := splitHoles_eq k3
  have hch' : s'.change = s2.change := by rw [hs', ← hsame.chg]
  have hou' : s'.outer = s2.outer := by rw [hs', ← hsame.out]
  have hpo' : s'.wpoly = Q := by rw [hs']
  have hq2 : q ∈ s2.qid.live := by rw [c1]; exact (hql q).2 (Or.inl q1)
  have hQ : ∀ w, Q w = s2.wpoly w ∨ (s2.wpoly w = some q ∧ Q w = some q') := by
    intro w
    rcases hPQ w with ⟨_, e2⟩ | ⟨e1, _, e3⟩
    · exact Or.inl (by rw [e2, hsame.wpo])
    · refine Or.inr ⟨?_, e3⟩
      have oq : s3.outer q ∈ s3.wid.live := by rw [hsame.out, hsame.wid]; exact (hn2.outs q hq2).1
      obtain ⟨f1, f2⟩ := hu3.child oq e1
      rw [hsame.wid] at f1
      rw [hsame.par, hsame.out] at f2
      exact (hn2.child f1 hq2 f2).1
  have hel : e ∈ s'.sid.live := by rw [hw'.2.1]; exact (hS.add.live _).2 (Or.inr rfl)
  have e0 : s'.wire (e, false) = some ow := by
    rw [hw'.1]
    obtain ⟨d, d1, d2, d3⟩ := hW1.seg ow ((hwl _).2 (Or.inl o1)) o2
    rw [hS.wseg] at d1
    simp only [upd, Function.update_self, Option.some.injEq] at d1
    subst d1
    exact d3
  have e1 : s'.wire (e, true) = some lw := by rw [hw'.1]; exact hS.wir1
  have hQ2 : ∀ w, w = ow ∨ w = lw → Q w = some q ∨ Q w = some q' := by
    intro w hw
    rcases hQ w with k | ⟨_, k⟩
    · rw [k]; exact c4 w hw
    · exact Or.inr k
  obtain ⟨rq, hrq⟩ : ∃ x, Q ow = some x := by rcases hQ2 ow (Or.inl rfl) with k | k <;> exact ⟨_, k⟩
  obtain ⟨lq, hlq⟩ : ∃ x, Q lw = some x := by rcases hQ2 lw (Or.inr rfl) with k | k <;> exact ⟨_, k⟩
  obtain ⟨hlr, hbt⟩ := h'.between hel e1 e0 hS.ne.symm (hpo' ▸ hlq) (hpo' ▸ hrq)
  have hcomb : (rq = q ∧ lq = q') ∨ (rq = q' ∧ lq = q) := by
    have a1 := hQ2 ow (Or.inl rfl)
    have a2 := hQ2 lw (Or.inr rfl)
    rw [hrq, Option.some.injEq, Option.some.injEq] at a1
    rw [hlq, Option.some.injEq, Option.some.injEq] at a2
    rcases a1 with rfl | rfl <;> rcases a2 with rfl | rfl
    · exact absurd rfl hlr
    · exact Or.inl ⟨rfl, rfl⟩
    · exact Or.inr ⟨rfl, rfl⟩
    · exact absurd rfl hlr
  have hsides : ∃ v, sidePoly s' (e, v) = some q ∧ sidePoly s' (e, !v) = some q' := by
    have f0 : sidePoly s' (e, false) = some rq := (sidePoly_of e0).trans (hpo' ▸ hrq)
    have f1 : sidePoly s' (e, true) = some lq := (sidePoly_of e1).trans (hpo' ▸ hlq)
    rcases hcomb with ⟨rfl, rfl⟩ | ⟨rfl, rfl⟩
    · exact ⟨false, f0, f1⟩
    · exact ⟨true, f1, f0⟩
  have hold : ∀ d : HE, d.1 ∈ s.sid.live → (sidePoly s d ≠ some q → sidePoly s' d = sidePoly s d) ∧
        (sidePoly s d = some q → sidePoly s' d = some q ∨ sidePoly s' d = some q') := by
    intro d hd
    obtain ⟨x, x1, x2⟩ := hS.fold h hd
    have x1' : s'.wire d = some x := by rw [hw'.1]; exact x1
    rw [sidePoly_of x1', sidePoly_of x2, hpo']
    by_cases hx : x = lw
    · rw [if_pos hx, hS.poly]
      exact ⟨fun hh => absurd rfl hh, fun _ => hQ2 x (Or.inr hx)⟩
    · rw [if_neg hx]
      by_cases hxo : x = ow
      · rw [hxo, hS.poly]
        exact ⟨fun hh => absurd rfl hh, fun _ => hQ2 ow (Or.inl rfl)⟩
      · have := c3 x hxo hx
        rcases hQ x with k | ⟨k, k'⟩
        · rw [k, this]
          exact ⟨fun _ => rfl, fun hh => Or.inl hh⟩
        · rw [← this]
          exact ⟨fun hh => absurd k hh, fun _ => Or.inr k'⟩
  have hqid : ∀ x, x ∈ s'.qid.live ↔ x ∈ s.qid.live ∨ x = q' := by rw [hw'.2.2]; exact hql
  rcases c5 with ⟨f1, f2, f3⟩ | ⟨f1, f2, f3, f4⟩
  · rw [hch', f1]
    refine ⟨q1, q2, hqid, hsides, hold, ?_⟩
    rw [hou', f2, f3]
    rcases hbt with ⟨b1, b2, b3⟩ | ⟨b1, b2, b3⟩ | ⟨b1, b2, b3⟩
    · exact b3.symm
    · rw [hou'] at b1 b2
      rcases hcomb with ⟨rfl, rfl⟩ | ⟨rfl, rfl⟩
      · exact absurd f2 b2
      · exact absurd (f2.symm.trans b1) hS.ne
    · rw [hou'] at b1 b2
      rcases hcomb with ⟨rfl, rfl⟩ | ⟨rfl, rfl⟩
      · exact absurd f3 b2
      · exact absurd (b1.symm.trans f3) hS.ne
  · rw [hch', f1]
    refine ⟨q1, q2, hqid, hsides, hold, ?_⟩
    have hl : s2.outer q ≠ lw := by
      rw [c2]
      intro hh
      have := (h.nest.outs q q1).1
      rw [hh] at this
      exact l1 this
    rw [hou'] at hbt ⊢
    rcases hbt with ⟨b1, b2, b3⟩ | ⟨b1, b2, b3⟩ | ⟨b1, b2, b3⟩
    · rcases hcomb with ⟨rfl, rfl⟩ | ⟨rfl, rfl⟩
      · exact absurd b2 f2
      · exact absurd b1 hl
    · rcases hcomb with ⟨rfl, rfl⟩ | ⟨rfl, rfl⟩
      · exact ⟨ow, by rw [b1]; exact b3, hpo' ▸ hrq, f2.symm⟩
      · exact absurd b1 hl
    · rcases hcomb with ⟨rfl, rfl⟩ | ⟨rfl, rfl⟩
      · exact absurd b1 f2
      · exact ⟨lw, by rw [b1]; exact b3, hpo' ▸ hlq, hl.symm⟩

theorem newSegment_true {a b e : Id} {s s' : St K} (hs : newSegment g a b s = .ok (e, s')) (h : Nested s)
    (ha : a ∈ s.pid.live) (hb : b ∈ s.pid.live) (hno : NoSwap s') : TrueNew s s' e s'.change := by
  have h' := newSegment_nested hs h ha hb hno
  obtain ⟨hab, hs⟩ := newSegment_cases hs h.inv.links ha hb
  have h0 := h.quiet
  have hsame : ∀ {c : Change}, s'.qid = s.qid → (∀ d : HE, d.1 ∈ s.sid.live → sidePoly s' d = sidePoly s d) →
      (e ∉ s.sid.live → s'.wire (e, true) = s'.wire (e, false)) → (c = .none ∨ ∃ x, c = .shape x) → TrueNew s s' e c := by
    have hw : (e ∉ s.sid.live → s'.wire (e, true) = s'.wire (e, false)) →
        e ∉ s.sid.live → sidePoly s' (e, true) = sidePoly s' (e, false) := fun k he => by
      unfold sidePoly
      rw [k he]
    rintro c k1 k2 k3 (rfl | ⟨x, rfl⟩)
    · exact ⟨k1, k2, hw k3⟩
    · exact ⟨k1, k2, hw k3⟩
  cases hs with
  | old ho hs =>
    dsimp only at hs
    subst hs
    refine hsame rfl (fun _ _ => rfl) (fun hn => ?_) (Or.inl rfl)
    rcases ho with h1 | h1
    · exact absurd ((h.inv.tab.exact_ _ _ _).1 h1).1 hn
    · exact absurd ((h.inv.tab.exact_ _ _ _).1 h1).1 hn
  | wire t1 t2 pa pb q qa qb hs =>
    obtain ⟨hA, _, _, _, h1, h2, h3, h4, h5, h6, h7, h8⟩ := newWire_eff hs h0.inv.links ha hb h0.free pa pb
    obtain ⟨_, hc⟩ := newWire_up hs h0.tree (h0.nest.outs q (h.free.full trivial a ha q qa).1).1
    refine hsame h2 (fun d hd => side_keep (s := s) (h7 d fun hh => hA.fresh (hh ▸ hd)).1 fun w hw => ?_)
      (fun _ => by rw [(h8 true).1, (h8 false).1]) (Or.inl hc)
    have : w ≠ s.wid.append.1 := by
      rintro rfl
      obtain ⟨x, x1, x2, _⟩ := h.wires.lab d hd
      rw [hw] at x1
      cases x1
      exact (Ids.append_ok h.inv.wids).1 x2
    rw [h4]
    simp only [upd]
    exact Function.update_of_ne this _ _
  | dendrite t1 t2 i root hC pa pb hs =>
    obtain ⟨hA, _, _, _, h1, h2, h3, h4, h5, h6, h7, h8, _⟩ := addDendrite_eff hs h0.inv.links ha hb h0.free hC pa
    exact hsame h2 (fun d hd => side_keep (s := s) (h7 d fun hh => hA.fresh (hh ▸ hd)).1 fun w _ => by rw [h4]; rfl)
      (fun _ => by rw [h8, h8]) (Or.inr ⟨_, (addDendrite_same hs).2⟩)
  | join t1 t2 ia ib hCa hCb pa pb _ hs =>
    obtain ⟨k1, k2, k3⟩ := joinWires_fold hs h0 h'.wires ha hb hCa hCb
    refine hsame k1 k2 (fun _ => k3) (Or.inr ?_)
    have hk := hs
    unfold joinWires at hk
    simp only [bind_ok, check_ok, need_ok, Except.ok.injEq, Prod.mk.injEq, Prod.exists] at hk
    obtain ⟨_, _, aw, _, bw, _, _, _, q, _, e', s1, h2, s2, h3, s3, h4, keep, hk, rm, hr, l, hl, s4, h5, s5, h6,
      rp, hrp, c, hc, m, hm, _, hfin⟩ := hk
    refine ⟨some q, ?_⟩
    have k3 : s3.change = .shape (some q) := (connectVtx_same h4).chg.trans ((connectVtx_same h3).chg.trans (makeSegment_same h2).chg)
    have k4 : s4.change = .shape (some q) := (relabel_same h5).chg.trans k3
    obtain ⟨C, k5⟩ := setParents_eq h6
    rw [← hfin]
    show s5.change = _
    rw [k5]
    exact k4
  | split t1 t2 ia ib hCa hCb pa pb _ hs =>
    exact (splitPoly_true hs h0 h' ha hb hCa hCb).of_quiet

end

theorem joinPoly_true {e : Id} {s s' : St K} (hs : joinPoly e s = .ok s') (h : Nested s) (hW' : Wires s') (he : e ∈ s.sid.live)
    (hn : ∀ v, s.next (e, v) ≠ some (e, !v)) (hd : s.wire (e, true) ≠ s.wire (e, false)) : TrueDel s s' e s'.change := by
  obtain ⟨_, lw, rw, lq, rq, q, q', keep, rm, l, r0, r1, hJ⟩ := joinPoly_start hs h he hn hd
  have hne : lw ≠ rw := fun hh => hd (by rw [hJ.hlw, hJ.hrw, hh])
  obtain ⟨a1, a2, a3, a4, a5, a6, a7, a8, a9, a10, a11, a12⟩ := hJ.kinds h hne
  obtain ⟨_, _, _, hmq⟩ := Ids.remove_ok h.inv.qids hJ.qid
  have hqid : ∀ x, x ∈ s'.qid.live ↔ x ∈ s.qid.live ∧ x ≠ q' := fun x => (hmq x).trans and_comm
  have hrm := hJ.hrm
  have hsides : ∃ v, sidePoly s (e, v) = some q ∧ sidePoly s (e, !v) = some q' := by
    rcases a12 with ⟨rfl, rfl⟩ | ⟨rfl, rfl⟩
    · exact ⟨true, (sidePoly_of hJ.hlw).trans a7, (sidePoly_of hJ.hrw).trans a9⟩
    · exact ⟨false, (sidePoly_of hJ.hrw).trans a7, (sidePoly_of hJ.hlw).trans a9⟩
  have hold : ∀ d : HE, d.1 ∈ s'.sid.live → sidePoly s' d = if sidePoly s d = some q' then some q else sidePoly s d := by
    intro d hd
    obtain ⟨x, x1, x2⟩ := hJ.fold h hW' hd
    obtain ⟨_, y1, xl, _⟩ := h.wires.lab d ((hJ.del.live _).1 hd).2
    obtain rfl := Option.some.inj (x1.symm.trans y1)
    rw [sidePoly_of x1, sidePoly_of x2, hJ.wpoly]
    by_cases hx : x = rm
    · rw [if_pos hx, hx, a9, if_pos rfl, a7]
      split <;> rfl
    · rw [if_neg hx]
      by_cases hc : x ∈ s.childs rm
      · rw [if_pos hc]
        have hp := (h.tree.child a6 hc).2
        rw [hrm] at hp
        rw [(h.nest.child xl a4 hp).1, if_pos rfl]
      · rw [if_neg hc, if_neg]
        intro hq
        have hna : ¬ Around (· ∈ s.qid.live) s.outer x := fun hh => hx ((h.nest.around hq hh).symm.trans hrm.symm)
        have := (h.nest.inner xl hq hna).2
        rw [← hrm] at this
        exact hc ((h.tree.childs_iff a6 xl hx).2 this)
  have hpar : (s.parent lw = s.parent rw) ↔ s.parent keep = s.parent rm := by
    rcases a12 with ⟨rfl, rfl⟩ | ⟨rfl, rfl⟩
    · exact Iff.rfl
    · exact eq_comm
  rcases hJ.change with ⟨g1, g2⟩ | ⟨g1, g2⟩
  · rw [g2]
    refine ⟨a8, a4, hqid, hsides, hold, ?_⟩
    rw [hpar] at g1
    rcases a11 with ⟨b1, b2⟩ | ⟨b1, b2⟩
    · rw [b1, ← hrm, b2]
    · rw [← g1] at b2
      exact absurd b2 (h.nest.self a1)
  · rw [g2]
    refine ⟨a8, a4, hqid, hsides, hold, ?_⟩
    rcases a11 with ⟨b1, b2⟩ | ⟨b1, b2⟩
    · exact absurd (hpar.2 b2) g1
    · exact ⟨keep, by rw [← hrm]; exact b2, a7, fun hh => b1 hh.symm⟩

theorem splitWire_true [LinearOrder K] {g : Geom K} {e : Id} {s s' : St K} (hs : splitWire g e s = .ok s') (h : Nested s)
    (he : e ∈ s.sid.live) (hn : ∀ v, s.next (e, v) ≠ some (e, !v)) : TrueDel s s' e s'.change := by
  obtain ⟨_, aw, bw, q, l, bn, r0, r1, hS⟩ := splitWire_eff (T := True) hs h.inv.links he h.free
    (fun _ w q hw hq => h.polyLive (d := (e, true)) he hw hq) (hn false) (hn true)
  obtain ⟨_, q', _, _, _, _, _, _, _, _, _, _, _, _, _, _, _, hc, _⟩ := splitWire_nest hs
  rw [hc]
  refine ⟨hS.qid, fun d hd => ?_⟩
  have hb : bw ∉ s.wid.live := hS.hbw ▸ (Ids.append_ok h.inv.wids).1
  unfold sidePoly
  rw [hS.wir]
  split
  · next hl =>
    rw [hS.old d hl]
    change s'.wpoly bw = s.wpoly aw
    rw [hS.wpoly, upd, Function.update_self, hS.hq]
  · obtain ⟨w, w1, w2, _⟩ := h.wires.lab d ((hS.del.live _).1 hd).2
    rw [w1]
    change s'.wpoly w = s.wpoly w
    rw [hS.wpoly, upd, Function.update_of_ne]
    rintro rfl
    exact hb w2

theorem deleteSegment_true [LinearOrder K] {g : Geom K} {e : Id} {s s' : St K} (hs : deleteSegment g e s = .ok s') (h : Nested s)
    (he : e ∈ s.sid.live) : TrueDel s s' e s'.change := by
  have hW := deleteSegment_wires hs h.inv h.wires he (h.delOk he)
  have h0 := h.quiet
  have hsame : ∀ {c : Change}, s'.qid = s.qid → s'.wire = s.wire → s'.wpoly = s.wpoly →
      (c = .none ∨ ∃ x, c = .shape x) → TrueDel s s' e c := by
    rintro c k1 k2 k3 (rfl | ⟨x, rfl⟩)
    · exact ⟨k1, fun d _ => by unfold sidePoly; rw [k2, k3]⟩
    · exact ⟨k1, fun d _ => by unfold sidePoly; rw [k2, k3]⟩
  cases deleteSegment_cases hs with
  | wire hn hs =>
    obtain ⟨hD, _, _, _, _, h1, h2, h3, h4, _⟩ :=
      rmWire_eff hs h0.inv.links he h0.free (fun _ w q hw hq => h0.polyLive (d := (e, true)) he hw hq)
    refine hsame h2 h1 h4 (Or.inl ?_)
    unfold rmWire at hs
    simp only [bind_ok, check_ok, need_ok, removeSet_ok] at hs
    obtain ⟨_, _, _, _, w, hw, q, hq, l, ⟨hl, rfl⟩, m, hm, hs⟩ := hs
    exact (destroySegment_same hs).chg
  | dendrite tip ht hr hs =>
    obtain ⟨hD, _, _, _, h1, _, h2, _, h3, _⟩ :=
      rmDendrite_eff hs h0.inv.links he h0.free (fun _ w q hw hq => h0.polyLive (d := (e, true)) he hw hq) ht hr
    obtain ⟨_, w, q, _, _, hc⟩ := rmDendrite_same hs
    exact hsame h2 h1 h3 (Or.inr ⟨_, hc⟩)
  | split hn hd hs => exact (splitWire_true hs h0 he hn).of_quiet
  | join hn hd hs => exact (joinPoly_true hs h0 hW he hn hd).of_quiet

end Verif.Decomp
