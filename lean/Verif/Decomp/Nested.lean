import Verif.Decomp.Up
import Verif.Decomp.NestCore

/-! Nesting of wires and polygons in all runs without deletion of bridges. -/
namespace Verif.Decomp

variable {K : Type}

/-- The wires `x` and `y` are on the two sides of one segment. -/
def Share (s : St K) (x y : Id) : Prop := ∃ d : HE, d.1 ∈ s.sid.live ∧ s.wire d = some x ∧ s.wire (flip d) = some y

/-- The wires of the state are nested. -/
abbrev NestSt (s : St K) : Prop :=
  Nest (· ∈ s.wid.live) (· ∈ s.qid.live) s.parent s.wpoly s.outer (Share s)

theorem Share.symm {s : St K} {x y : Id} (h : Share s x y) : Share s y x := by
  obtain ⟨d, h1, h2, h3⟩ := h
  exact ⟨flip d, h1, h3, by rw [flip_flip]; exact h2⟩

theorem Share.congr {s s' : St K} (h1 : s'.sid = s.sid) (h2 : s'.wire = s.wire) (x y : Id) : Share s' x y ↔ Share s x y := by
  unfold Share
  rw [h1, h2]

/-- Sides of a new segment are the only new ones. -/
theorem share_add [Field K] {s s' : St K} {e a b : Id} (hA : AddSeg s s' e a b) (hw : ∀ d : HE, d.1 ≠ e → s'.wire d = s.wire d)
    (x y : Id) : Share s' x y ↔ Share s x y ∨ ∃ v, s'.wire (e, v) = some x ∧ s'.wire (e, !v) = some y := by
  have hne : ∀ d : HE, d.1 ∈ s.sid.live → d.1 ≠ e := fun d hd hh => hA.fresh (hh ▸ hd)
  constructor
  · rintro ⟨⟨d, v⟩, h1, h2, h3⟩
    by_cases hd : d = e
    · subst hd
      exact Or.inr ⟨v, h2, h3⟩
    · refine Or.inl ⟨(d, v), ((hA.live _).1 h1).resolve_right hd, ?_, ?_⟩
      · rw [← hw _ hd]; exact h2
      · rw [← hw _ hd]; exact h3
  · rintro (⟨d, h1, h2, h3⟩ | ⟨v, h1, h2⟩)
    · exact ⟨d, (hA.live _).2 (Or.inl h1), by rw [hw _ (hne d h1)]; exact h2, by rw [hw _ (hne (flip d) h1)]; exact h3⟩
    · exact ⟨(e, v), (hA.live _).2 (Or.inr rfl), h1, h2⟩

/-- Sides of a removed segment are gone. -/
theorem share_del {s s' : St K} {e : Id} (hD : DelSeg s s' e) (hw : s'.wire = s.wire)
    (x y : Id) : Share s x y ↔ Share s' x y ∨ ∃ v, s.wire (e, v) = some x ∧ s.wire (e, !v) = some y := by
  constructor
  · rintro ⟨⟨d, v⟩, h1, h2, h3⟩
    by_cases hd : d = e
    · subst hd
      exact Or.inr ⟨v, h2, h3⟩
    · exact Or.inl ⟨(d, v), (hD.live _).2 ⟨hd, h1⟩, by rw [hw]; exact h2, by rw [hw]; exact h3⟩
  · rintro (⟨d, h1, h2, h3⟩ | ⟨v, h1, h2⟩)
    · exact ⟨d, ((hD.live _).1 h1).2, by rw [← hw]; exact h2, by rw [← hw]; exact h3⟩
    · exact ⟨(e, v), hD.was, h1, h2⟩

/-- Invariant of the runs without deletion of bridges. -/
structure Nested [Field K] (s : St K) : Prop where
  inv : Inv s
  wires : Wires s
  tree : UpTree s
  free : Free True s
  nest : NestSt s

variable [Field K]

theorem Nested.frame {s s' : St K} (h : Nested s) (hI : Inv s') (hW : Wires s') (hF : Free True s') (h1 : s'.wid = s.wid)
    (h2 : s'.parent = s.parent) (h3 : s'.childs = s.childs) (h4 : s'.qid = s.qid) (h5 : s'.wpoly = s.wpoly)
    (h6 : s'.outer = s.outer) (h7 : ∀ x y, Share s' x y ↔ Share s x y) : Nested s' :=
  ⟨hI, hW, h.tree.frame h1 h2 h3, hF, h.nest.congr (by simp [h1]) (by simp [h4]) (by simp [h2]) (by simp [h5]) (by simp [h6]) h7⟩

theorem Nested.quiet {s : St K} (h : Nested s) : Nested (quiet s) :=
  h.frame (h.inv.frame rfl rfl rfl rfl rfl rfl rfl rfl rfl rfl) (h.wires.frame rfl rfl rfl rfl rfl rfl)
    (h.free.congr rfl rfl rfl rfl rfl) rfl rfl rfl rfl rfl rfl fun _ _ => Iff.rfl

/-- The wire and the polygon of a side. -/
theorem Nested.side {s : St K} (h : Nested s) {d : HE} (hd : d.1 ∈ s.sid.live) :
    ∃ w q, s.wire d = some w ∧ w ∈ s.wid.live ∧ w ≠ 0 ∧ s.wpoly w = some q ∧ q ∈ s.qid.live := by
  obtain ⟨w, h1, h2, h3⟩ := h.wires.lab d hd
  obtain ⟨q, h4, h5, _⟩ := h.nest.pols w h2
  exact ⟨w, q, h1, h2, h3, h5, h4⟩

theorem Nested.polyLive {s : St K} (h : Nested s) {d : HE} (hd : d.1 ∈ s.sid.live) {w q : Id} (hw : s.wire d = some w)
    (hq : s.wpoly w = some q) : q ∈ s.qid.live := by
  obtain ⟨w', q', h1, h2, h3, h4, h5⟩ := h.side hd
  rw [hw] at h1
  cases h1
  rw [hq] at h4
  cases h4
  exact h5

theorem Nested.share {s : St K} (_ : Nested s) {e : Id} {v : Bool} {x y : Id} (he : e ∈ s.sid.live) (h1 : s.wire (e, v) = some x)
    (h2 : s.wire (e, !v) = some y) : Share s x y := ⟨(e, v), he, h1, h2⟩

/-- A deletion never joins the outer wire of a polygon with a hole of this polygon. -/
theorem Nested.delOk {s : St K} (h : Nested s) {e : Id} (he : e ∈ s.sid.live) : DelOk s e := by
  intro v w w' q h1 h2 hne hq hp
  have hs := h.share he h1 h2
  obtain ⟨hw, hw', _, _⟩ := h.nest.shw _ _ hs
  rcases h.nest.adj _ _ hs with k | ⟨k1, k2, k3⟩ | ⟨k1, k2, k3⟩ | ⟨k1, k2, k3⟩
  · exact absurd k hne
  · exact absurd (k3 ▸ hp) (h.nest.self hw')
  · exact (h.nest.around hq k1).symm
  · exact absurd k3 (h.nest.swap hw hp)

section
variable [LinearOrder K] {g : Geom K}

theorem newWire_nested {q a b e : Id} {s s' : St K} (hs : newWire q a b s = .ok (e, s')) (h : Nested s) (ha : a ∈ s.pid.live)
    (hb : b ∈ s.pid.live) (pa : s.pseg a = none) (pb : s.pseg b = none) (hq : q ∈ s.qid.live) :
    UpTree s' ∧ Free True s' ∧ NestSt s' := by
  obtain ⟨hA, _, hF, _, h1, h2, h3, h4, h5, h6, h7, h8⟩ := newWire_eff hs h.inv.links ha hb h.free pa pb
  obtain ⟨hu, _⟩ := newWire_up hs h.tree (h.nest.outs q hq).1
  obtain ⟨k1, k2, k3⟩ := Ids.append_ok h.inv.wids
  refine ⟨hu, hF, ?_⟩
  have := h.nest.add (n := s.wid.append.1) (q := q) k1 hq (W' := (· ∈ s'.wid.live)) (par' := s'.parent) (pol' := s'.wpoly)
    (sh' := Share s') (fun w => by rw [h1, k2]; simp) (fun w => by rw [h5]; simp [upd, Function.update_apply])
    (fun w => by rw [h4]; simp [upd, Function.update_apply]) (fun x y => by
      rw [share_add hA fun d hd => (h7 d hd).1]
      simp only [(h8 _).1, Option.some.injEq]
      constructor
      · rintro (k | ⟨_, rfl, rfl⟩)
        · exact Or.inl k
        · exact Or.inr ⟨rfl, rfl⟩
      · rintro (k | ⟨rfl, rfl⟩)
        · exact Or.inl k
        · exact Or.inr ⟨true, rfl, rfl⟩)
  unfold NestSt
  rw [h2, h3]
  exact this

theorem addDendrite_nested {a b e : Id} {i : Ins} {root : Bool} {s s' : St K} (hs : wireAddDendrite a b i root s = .ok (e, s'))
    (h : Nested s) (ha : a ∈ s.pid.live) (hb : b ∈ s.pid.live) (hC : Corner s (if root then b else a) i)
    (hp : s.pseg (if root then a else b) = none) : UpTree s' ∧ Free True s' ∧ NestSt s' := by
  obtain ⟨hA, _, hF, _, h1, h2, h3, h4, h5, h6, h7, h8, _⟩ := addDendrite_eff hs h.inv.links ha hb h.free hC hp
  have hu := h.tree.same (addDendrite_same hs).1
  refine ⟨hu.frame rfl rfl rfl, hF, ?_⟩
  have hi : i.2.2 = s.wire i.1 := hC.wir
  obtain ⟨w, w1, w2, w3⟩ := h.wires.lab i.1 hC.live
  have hsh := share_add hA fun d hd => (h7 d hd).1
  have := h.nest.loops (sh' := Share s') (fun x y hxy => by
      rcases (hsh x y).1 hxy with k | ⟨v, k1, k2⟩
      · exact Or.inl k
      · rw [h8, hi, w1] at k1 k2
        cases k1
        cases k2
        exact Or.inr ⟨rfl, w2, w3⟩) (fun x y hxy => Or.inr ((hsh x y).2 (Or.inl hxy))) (fun x y hxy => hxy.symm)
  unfold NestSt
  rw [h1, h2, h3, h4, h5]
  exact this

theorem joinWires_nested {a b e : Id} {ia ib : Ins} {s s' : St K} (hs : joinWires a b ia ib s = .ok (e, s')) (h : Nested s)
    (hW' : Wires s') (ha : a ∈ s.pid.live) (hb : b ∈ s.pid.live) (hCa : Corner s a ia) (hCb : Corner s b ib) :
    UpTree s' ∧ Free True s' ∧ NestSt s' := by
  obtain ⟨hA, _, hF, hS, aw, bw, q, keep, rm, l, rp, k1, k2, k3, p1, p2, k4, k5, k5', k6, k7, k8, k9, r1, r2, r3, k10, k11, _, _⟩ :=
      joinWires_eff hs h.inv.links ha hb h.free hCa hCb
  have gaw : s.wire ia.1 = some aw := hCa.wir.symm.trans k1
  have gbw : s.wire ib.1 = some bw := hCb.wir.symm.trans k2
  obtain ⟨_, ga, gal, ga0⟩ := h.wires.lab ia.1 hCa.live
  obtain rfl := Option.some.inj (gaw.symm.trans ga)
  obtain ⟨_, gb, gbl, gb0⟩ := h.wires.lab ib.1 hCb.live
  obtain rfl := Option.some.inj (gbw.symm.trans gb)
  have hinn : ∀ w, w ∈ s.wid.live → s.wpoly w = some q → s.outer q ≠ w → s.parent w = some (s.outer q) := fun w hw hp hn =>
    (h.nest.inner hw hp fun hh => hn (h.nest.around hp hh)).2
  have hout : s.outer q = keep ∨ (s.outer q ≠ aw ∧ s.outer q ≠ bw) := by
    rcases k4 with ⟨e1, e2, e3⟩ | ⟨e1, e2, e3⟩
    · exact Or.inl (e1 ▸ e3)
    · by_cases hh : s.outer q = bw
      · exact Or.inl (e1 ▸ hh)
      · exact Or.inr ⟨e3, hh⟩
  have hor : (s.outer q = aw ∨ s.outer q = bw) ↔ s.outer q = keep := by
    constructor
    · intro hh
      rcases hout with k | k
      · exact k
      · exact (hh.elim k.1 k.2).elim
    · intro hh
      rw [hh]
      rcases k4 with ⟨e1, e2, e3⟩ | ⟨e1, e2, e3⟩
      · exact Or.inl e1
      · exact Or.inr e1
  have hoeq : s'.outer = s.outer := by
    rw [r2]
    split
    · next hh =>
      rw [hor] at hh
      rw [← hh]
      exact Function.update_eq_self _ _
    · rfl
  have hx : ∀ aw' bw' q', ia.2.2 = some aw' → ib.2.2 = some bw' → s.wpoly aw' = some q' → s.wpoly bw' = some q' → aw' ≠ bw' →
      aw' ∈ s.wid.live ∧ bw' ∈ s.wid.live ∧ aw' ≠ 0 ∧ bw' ≠ 0 ∧ s.parent aw' ≠ some aw' ∧ s.parent bw' ≠ some bw' ∧
      (s.outer q' = aw' → s.parent aw' ≠ some bw') ∧ (s.outer q' = bw' → s.parent bw' ≠ some aw') := by
    intro aw' bw' q' e1 e2 e3 e4 _
    rw [k1] at e1
    cases e1
    rw [k2] at e2
    cases e2
    rw [p1] at e3
    cases e3
    refine ⟨gal, gbl, ga0, gb0, h.nest.self gal, h.nest.self gbl, fun hh hp => ?_, fun hh hp => ?_⟩
    · have := hinn bw gbl p2 (by rw [hh]; exact k3)
      rw [hh] at this
      exact h.nest.swap gal hp this
    · have := hinn aw gal p1 (by rw [hh]; exact k3.symm)
      rw [hh] at this
      exact h.nest.swap gbl hp this
  obtain ⟨hu, _⟩ := joinWires_up hs h.tree hx
  refine ⟨hu, hF, ?_⟩
  have hkl : keep ∈ s.wid.live ∧ keep ≠ 0 ∧ s.wpoly keep = some q ∧ rm ∈ s.wid.live ∧ rm ≠ 0 ∧ s.wpoly rm = some q ∧ keep ≠ rm ∧
      s.outer q ≠ rm := by
    rcases k4 with ⟨rfl, rfl, e3⟩ | ⟨rfl, rfl, e3⟩
    · exact ⟨gal, ga0, p1, gbl, gb0, p2, k3, by rw [e3]; exact k3⟩
    · exact ⟨gbl, gb0, p2, gal, ga0, p1, k3.symm, e3⟩
  obtain ⟨a1, a2, a3, a4, a5, a6, a7, a8⟩ := hkl
  have hne : ∀ d : HE, d.1 ∈ s.sid.live → d.1 ≠ e := fun d hd hh => hA.fresh (hh ▸ hd)
  obtain ⟨_, _, _, hrm⟩ := Ids.remove_ok h.inv.wids k9
  have hph : ∀ d : HE, d.1 ∈ s.sid.live → ∃ x, s.wire d = some x ∧ s'.wire d = some (if x = rm then keep else x) := by
    intro d hd
    obtain ⟨x, x1, x2, x3⟩ := h.wires.lab d hd
    refine ⟨x, x1, ?_⟩
    have hd' := k6 d (hne d hd)
    by_cases hl : d ∈ l
    · rw [if_pos hl] at hd'
      have := k5' d hl (hne d hd)
      rw [x1] at this
      rw [hd', if_pos (Option.some.inj this)]
    · rw [if_neg hl, x1] at hd'
      obtain ⟨y, y1, y2, _⟩ := hW'.lab d ((hA.live _).2 (Or.inl hd))
      rw [hd'] at y1
      cases y1
      rw [hd', if_neg ((hrm x).1 y2).1]
  have he1 : s'.wire (e, true) = some keep := by
    refine k8 ?_
    rcases k5 with ⟨hh, _⟩ | ⟨_, l1, ⟨e1, e2, _⟩ | ⟨e1, _⟩⟩
    · exact absurd hh (h.wires.par rm a4 a5)
    · cases l with
      | nil => exact absurd rfl l1
      | cons d l =>
        refine Or.inl ?_
        have : d = (e, true) := e2.1.symm
        simp [this]
    · exact Or.inr e1
  have hev : ∀ v, s'.wire (e, v) = some keep := fun v => by cases v; exacts [k7, he1]
  have hpar : ∀ w, w ∈ s.wid.live → s'.parent w = if s.parent w = some rm then (if s.outer q = keep then s.parent keep else some keep)
      else s.parent w := by
    intro w hw
    rw [k11]
    simp only [hor]
    by_cases hwr : w = rm
    · subst hwr
      rw [if_neg fun hh => h.nest.self a4 (h.tree.child a4 hh).2, if_neg (h.nest.self a4)]
    · simp only [h.tree.childs_iff a4 hw hwr]
  have := h.nest.join (k := keep) (r := rm) (q := q) a1 a4 a7 a2 a3 a6 a8 (W' := (· ∈ s'.wid.live)) (par' := s'.parent)
    (sh' := Share s') (fun w => (hrm w).trans and_comm) hpar (fun x y hxy => by
      obtain ⟨d, d1, d2, d3⟩ := hxy
      by_cases hd : d.1 = e
      · have e1 : s'.wire d = some keep := by rw [show d = (e, d.2) by rw [← hd]]; exact hev _
        have e2 : s'.wire (flip d) = some keep := by rw [show flip d = (e, !d.2) by rw [← hd]; rfl]; exact hev _
        rw [e1] at d2
        rw [e2] at d3
        cases d2
        cases d3
        exact Or.inl ⟨rfl, rfl⟩
      · have hdl := ((hA.live _).1 d1).resolve_right hd
        obtain ⟨x0, x1, x2⟩ := hph d hdl
        obtain ⟨y0, y1, y2⟩ := hph (flip d) hdl
        rw [x2] at d2
        rw [y2] at d3
        exact Or.inr ⟨x0, y0, ⟨d, hdl, x1, y1⟩, (Option.some.inj d2).symm, (Option.some.inj d3).symm⟩)
    (fun x0 y0 hxy => by
      obtain ⟨d, d1, d2, d3⟩ := hxy
      obtain ⟨_, x1, x2⟩ := hph d d1
      obtain ⟨_, y1, y2⟩ := hph (flip d) d1
      rw [d2] at x1
      cases x1
      rw [d3] at y1
      cases y1
      exact ⟨d, (hA.live _).2 (Or.inl d1), x2, y2⟩) (fun x y hxy => hxy.symm)
  unfold NestSt
  rw [hoeq, r1, r3]
  exact this

/-- The wire of each old side after a wire is cut. -/
theorem SplitPoly.fold {s s1 : St K} {e a b : Id} {ia ib : Ins} {ow lw q q' : Id} {l : List HE}
    (hS : SplitPoly s s1 e a b ia ib ow lw q q' l) (h : Nested s) {d : HE} (hd : d.1 ∈ s.sid.live) :
    ∃ x, s1.wire d = some x ∧ s.wire d = some (if x = lw then ow else x) := by
  have hne : d.1 ≠ e := fun hh => hS.add.fresh (hh ▸ hd)
  have h1 := hS.wir d hne
  by_cases hl : d ∈ l
  · rw [if_pos hl] at h1
    exact ⟨lw, h1, by rw [if_pos rfl]; exact hS.old d hl hne⟩
  · rw [if_neg hl] at h1
    obtain ⟨x, x1, x2, _⟩ := h.wires.lab d hd
    refine ⟨x, h1.trans x1, ?_⟩
    rw [if_neg, x1]
    rintro rfl
    exact (Ids.append_ok h.inv.wids).1 (hS.hlw ▸ x2)

theorem SplitPoly.lives {s s1 : St K} {e a b : Id} {ia ib : Ins} {ow lw q q' : Id} {l : List HE}
    (hS : SplitPoly s s1 e a b ia ib ow lw q q' l) (h : Nested s) (hCa : Corner s a ia) :
    ow ∈ s.wid.live ∧ ow ≠ 0 ∧ lw ∉ s.wid.live ∧ lw ≠ 0 ∧ q ∈ s.qid.live ∧ q' ∉ s.qid.live ∧
      (∀ w, w ∈ s1.wid.live ↔ w ∈ s.wid.live ∨ w = lw) ∧ ∀ w, w ∈ s1.qid.live ↔ w ∈ s.qid.live ∨ w = q' := by
  obtain ⟨k1, k2, k3⟩ := Ids.append_ok h.inv.wids
  obtain ⟨j1, j2, j3⟩ := Ids.append_ok h.inv.qids
  have gaw : s.wire ia.1 = some ow := hCa.wir.symm.trans hS.hia
  obtain ⟨w, ga, gal, ga0⟩ := h.wires.lab ia.1 hCa.live
  obtain rfl := Option.some.inj (gaw.symm.trans ga)
  have hlw : lw ∉ s.wid.live := hS.hlw ▸ k1
  refine ⟨gal, ga0, hlw, fun hh => hlw (hh ▸ h.wires.root), h.polyLive hCa.live gaw hS.poly, hS.hq ▸ j1, fun w => ?_, fun w => ?_⟩
  · rw [hS.wid, k2, hS.hlw]; simp
  · rw [hS.qid, j2, hS.hq]; simp

theorem cut_nested {e a b : Id} {ia ib : Ins} {ow lw q q' : Id} {l : List HE} {s s1 s2 : St K}
    (hS : SplitPoly s s1 e a b ia ib ow lw q q' l) (h : Nested s) (hW1 : Wires s1) (hCa : Corner s a ia)
    (hs : cut g q q' ow lw s1 = .ok s2) : UpTree s2 ∧ NestSt s2 ∧
      ((s2.outer q = ow ∧ s2.outer q' = lw ∧ s2.parent lw = s2.parent ow) ∨
        ∃ iw uw, s2.outer q' = iw ∧ s2.parent uw = some (s2.outer q) ∧ s2.parent iw = some uw) := by
  obtain ⟨o1, o2, l1, l2, q1, q2, hwl, hql⟩ := hS.lives h hCa
  have hqq : q ≠ q' := fun hh => q2 (hh ▸ q1)
  have hA := hS.add
  have hne : ∀ d : HE, d.1 ∈ s.sid.live → d.1 ≠ e := fun d hd hh => hA.fresh (hh ▸ hd)
  have hu1 : UpTree s1 := (newWireObj_up h.tree).frame hS.wid (by rw [hS.parent, hS.hlw]; rfl) (by rw [hS.childs, hS.hlw]; rfl)
  have hu2 := cut_up hs hu1 ((hwl _).2 (Or.inr rfl)) l2 ((hwl _).2 (Or.inl o1)) o2
  have e0 : s1.wire (e, false) = some ow := by
    obtain ⟨d, d1, d2, d3⟩ := hW1.seg ow ((hwl _).2 (Or.inl o1)) o2
    rw [hS.wseg] at d1
    simp only [upd, Function.update_self, Option.some.injEq] at d1
    subst d1
    exact d3
  have e1 : s1.wire (e, true) = some lw := hS.wir1
  have h3 : ∀ x y, Share s1 x y → (x = ow ∧ y = lw) ∨ (x = lw ∧ y = ow) ∨
      Share s (if x = lw then ow else x) (if y = lw then ow else y) := by
    rintro x y ⟨⟨d, v⟩, d1, d2, d3⟩
    by_cases hd : d = e
    · subst hd
      cases v
      · rw [e0] at d2
        rw [show flip ((d, false) : HE) = (d, true) from rfl, e1] at d3
        cases d2
        cases d3
        exact Or.inl ⟨rfl, rfl⟩
      · rw [e1] at d2
        rw [show flip ((d, true) : HE) = (d, false) from rfl, e0] at d3
        cases d2
        cases d3
        exact Or.inr (Or.inl ⟨rfl, rfl⟩)
    · have hdl := ((hA.live _).1 d1).resolve_right hd
      obtain ⟨x', x1, x2⟩ := hS.fold h (d := (d, v)) hdl
      obtain ⟨y', y1, y2⟩ := hS.fold h (d := flip (d, v)) hdl
      rw [d2] at x1
      cases x1
      rw [d3] at y1
      cases y1
      exact Or.inr (Or.inr ⟨(d, v), hdl, x2, y2⟩)
  have h4 : ∀ x0 y0, Share s x0 y0 → ∃ x y, Share s1 x y ∧ (if x = lw then ow else x) = x0 ∧ (if y = lw then ow else y) = y0 := by
    rintro x0 y0 ⟨d, d1, d2, d3⟩
    obtain ⟨x, x1, x2⟩ := hS.fold h (d := d) d1
    obtain ⟨y, y1, y2⟩ := hS.fold h (d := flip d) d1
    rw [d2] at x2
    rw [d3] at y2
    exact ⟨x, y, ⟨d, (hA.live _).2 (Or.inl d1), x1, y1⟩, (Option.some.inj x2).symm, (Option.some.inj y2).symm⟩
  have h6 : Share s1 ow lw := ⟨(e, false), (hA.live _).2 (Or.inr rfl), e0, e1⟩
  have hoq : s1.outer q = s.outer q := by rw [hS.outer]; simp only [upd, Function.update_of_ne hqq]
  unfold cut at hs
  rw [hoq] at hs
  split at hs
  · next ho =>
    obtain ⟨C, rfl⟩ := cutOuter_eq hs
    have := h.nest.cutO (ow := ow) (lw := lw) (q := q) (q' := q') q1 ho o2 l1 q2 (W' := (· ∈ s1.wid.live)) (Q' := (· ∈ s1.qid.live))
      (par' := upd s1.parent lw (s1.parent ow)) (pol' := s1.wpoly) (out' := s1.outer) (sh' := Share s1) hwl hql
      (fun w => by
        rw [hS.parent]
        by_cases hw : w = lw
        · subst hw
          rw [if_pos rfl]
          simp [upd, Function.update_of_ne hS.ne]
        · rw [if_neg hw]
          simp [upd, Function.update_of_ne hw])
      (fun w => by rw [hS.wpoly]; simp [upd, Function.update_apply])
      (fun w => by rw [hS.outer]; simp [upd, Function.update_apply]) h3 h4 (fun x y hxy => hxy.symm) h6
    refine ⟨hu2, this, Or.inl ⟨hoq.trans ho, ?_, ?_⟩⟩
    · show s1.outer q' = lw
      rw [hS.outer]
      simp [upd]
    · simp [upd, Function.update_of_ne hS.ne]
  · next ho =>
    obtain ⟨iw, uw, C, inR, hiu, _, hpo, rfl⟩ := cutHole_eq hs
    have hnc : ow ∉ s1.childs ow := by
      intro hh
      have := (hu1.child ((hwl _).2 (Or.inl o1)) hh).2
      rw [hpo, hoq] at this
      exact ho (Option.some.inj this)
    have hio : iw ≠ uw := by
      rcases hiu with ⟨_, rfl, rfl⟩ | ⟨_, rfl, rfl⟩
      · exact hS.ne.symm
      · exact hS.ne
    have hiu' : (iw = ow ∧ uw = lw) ∨ (iw = lw ∧ uw = ow) := by
      rcases hiu with ⟨_, k⟩ | ⟨_, k⟩
      · exact Or.inr k
      · exact Or.inl k
    have hpu : upd (upd (fun c => if c ∈ s1.childs ow then some uw else s1.parent c) uw
          (if ow ∈ s1.childs ow then some uw else s1.parent ow)) iw (some uw) uw = some (s.outer q) := by
      rw [if_neg hnc, hpo, hoq]
      simp [upd, Function.update_of_ne hio.symm]
    have hpi : upd (upd (fun c => if c ∈ s1.childs ow then some uw else s1.parent c) uw
          (if ow ∈ s1.childs ow then some uw else s1.parent ow)) iw (some uw) iw = some uw := by
      simp [upd]
    have hq'i : upd s1.outer q' iw q' = iw := by simp [upd]
    have := h.nest.cutH (ow := ow) (lw := lw) (q := q) (q' := q') (iw := iw) (uw := uw) o1 hS.poly ho o2 l1 q2 hiu'
      (W' := (· ∈ s1.wid.live)) (Q' := (· ∈ s1.qid.live))
      (par' := upd (upd (fun c => if c ∈ s1.childs ow then some uw else s1.parent c) uw
          (if ow ∈ s1.childs ow then some uw else s1.parent ow)) iw (some uw))
      (pol' := upd (upd s1.wpoly uw (some q)) iw (some q')) (out' := upd s1.outer q' iw) (sh' := Share s1) hwl hql
      hpu hpi
      (fun w hw hwo => by
        have hwl' : w ≠ lw := fun hh => l1 (hh ▸ hw)
        have hwi : w ≠ iw := by rcases hiu' with ⟨rfl, rfl⟩ | ⟨rfl, rfl⟩ <;> assumption
        have hwu : w ≠ uw := by rcases hiu' with ⟨rfl, rfl⟩ | ⟨rfl, rfl⟩ <;> assumption
        have hsp : s1.parent w = s.parent w := by rw [hS.parent]; simp [upd, Function.update_of_ne hwl']
        simp only [upd, Function.update_of_ne hwi, Function.update_of_ne hwu]
        simp only [hu1.childs_iff ((hwl _).2 (Or.inl o1)) ((hwl _).2 (Or.inl hw)) hwo, hsp])
      (by simp [upd, Function.update_of_ne hio.symm]) (by simp [upd])
      (fun w hw hwo => by
        have hwl' : w ≠ lw := fun hh => l1 (hh ▸ hw)
        have hwi : w ≠ iw := by rcases hiu' with ⟨rfl, rfl⟩ | ⟨rfl, rfl⟩ <;> assumption
        have hwu : w ≠ uw := by rcases hiu' with ⟨rfl, rfl⟩ | ⟨rfl, rfl⟩ <;> assumption
        simp only [upd, Function.update_of_ne hwi, Function.update_of_ne hwu]
        rw [hS.wpoly]
        simp [upd, Function.update_of_ne hwl'])
      (fun x => by
        rw [hS.outer]
        by_cases hx : x = q'
        · simp [upd, hx]
        · simp [upd, hx])
      h3 h4 (fun x y hxy => hxy.symm) h6
    refine ⟨hu2, this, Or.inr ⟨iw, uw, hq'i, ?_, hpi⟩⟩
    show _ = some (upd s1.outer q' iw q)
    rw [show upd s1.outer q' iw q = s.outer q by simp only [upd, Function.update_of_ne hqq]; exact hoq]
    exact hpu

theorem splitPoints_frame {q' : Id} {l : List Id} : ∀ {s s' : St K}, splitPoints q' l s = .ok s' →
    s'.sid = s.sid ∧ s'.wire = s.wire := by
  induction l with
  | nil =>
    intro s s' h
    simp only [splitPoints, Except.ok.injEq] at h
    exact h ▸ ⟨rfl, rfl⟩
  | cons p l ih =>
    intro s s' h
    simp only [splitPoints, bind_ok] at h
    obtain ⟨c, _, s1, h1, h⟩ := h
    have : s1.sid = s.sid ∧ s1.wire = s.wire := by
      split at h1
      · obtain ⟨pp, fp, rfl⟩ := setPolygon_eq h1
        exact ⟨rfl, rfl⟩
      · simp only [Except.ok.injEq] at h1
        exact h1 ▸ ⟨rfl, rfl⟩
    exact ⟨(ih h).1.trans this.1, (ih h).2.trans this.2⟩

/-- No two wires are the parents of each other. -/
def NoSwap (s : St K) : Prop := ∀ x ∈ s.wid.live, ∀ y ∈ s.wid.live, x ≠ y → s.parent x = some y → s.parent y ≠ some x

/-- Holes of the old polygon are given to the new one. -/
theorem giveHoles_nested {q q' : Id} {s s' : St K} (hs : splitHoles g q' (s.childs (s.outer q)) s = .ok s') (hu : UpTree s)
    (hn : NestSt s) (hq : q ∈ s.qid.live) (hq' : q' ∈ s.qid.live) (hq0 : s.outer q' ≠ 0) (hqq : s.outer q ≠ s.outer q')
    (hx : (s.parent (s.outer q') = s.parent (s.outer q)) ∨
        ∃ uw, s.parent uw = some (s.outer q) ∧ s.parent (s.outer q') = some uw) (hno : NoSwap s') :
    UpTree s' ∧ NestSt s' := by
  have oq := (hn.outs q hq).1
  have oq' := (hn.outs q' hq').1
  have hch : ∀ c ∈ s.childs (s.outer q), c ∈ s.wid.live ∧ s.parent c = some (s.outer q) := fun c hc => hu.child oq hc
  have hu' := splitHoles_up hu (fun c hc => ⟨(hch c hc).1, fun h0 => by
    have := (hch c hc).2
    rw [h0, hn.p0] at this
    cases this⟩) oq' hs
  refine ⟨hu', ?_⟩
  obtain ⟨P, C, Q, rfl, hPQ⟩ := splitHoles_eq hs
  have hH1 : ∀ c, ¬ (P c = s.parent c ∧ Q c = s.wpoly c) → c ∈ s.wid.live ∧ s.parent c = some (s.outer q) := fun c hc =>
    hch c ((hPQ c).resolve_left hc).1
  have hH2 : ∀ c, ¬ ¬ (P c = s.parent c ∧ Q c = s.wpoly c) → P c = s.parent c ∧ Q c = s.wpoly c := fun c hc => not_not.1 hc
  have hUq : Up P (s.outer q) := Up.avoid hn.p0 (hn.chain _ oq) (H := fun c => ¬ (P c = s.parent c ∧ Q c = s.wpoly c))
    (fun w hw => (hH1 w hw).2) (fun w hw => (hH2 w hw).1)
  have hkeep : ∀ w, s.parent w ≠ some (s.outer q) → P w = s.parent w := fun w hw =>
    (hH2 w fun hh => hw (hH1 w hh).2).1
  have hpq' : s.parent (s.outer q') ≠ some (s.outer q) := by
    intro hh
    exact hn.hole q' hq' (fun h0 => hq0 (h0 ▸ hn.o0)) _ hh ⟨q, hq, rfl⟩
  have hU : Up P (s.outer q') := by
    rcases hx with hx | ⟨uw, u1, u2⟩
    · by_cases h0 : s.outer q = 0
      · rw [h0, hn.p0] at hx
        exact absurd hx (hu.non _ oq' hq0)
      · obtain ⟨p, p1, p2⟩ := hUq.inv h0
        refine .step (p := p) ?_ p2
        rw [hkeep _ hpq', hx, ← p1, hkeep _ (hn.self oq)]
    · have hPi := hkeep _ hpq'
      rw [u2] at hPi
      refine .step hPi ?_
      have hul : uw ∈ s.wid.live := hn.par_ex oq' u2
      rcases hPQ uw with ⟨e1, _⟩ | ⟨_, e1, _⟩
      · exact .step (e1.trans u1) hUq
      · by_cases hne : uw = s.outer q'
        · rw [hne] at u2
          exact absurd u2 (hn.self oq')
        · exact absurd hPi (hno uw hul _ oq' hne e1)
  exact hn.holes (q := q) (q' := q') hq hq' (H := fun c => ¬ (P c = s.parent c ∧ Q c = s.wpoly c)) (hH1)
    (fun w hw => ((hPQ w).resolve_left hw).2) hH2 hU

theorem splitPoly_nested {a b e : Id} {ia ib : Ins} {s s' : St K} (hs : splitPoly g a b ia ib s = .ok (e, s')) (h : Nested s)
    (ha : a ∈ s.pid.live) (hb : b ∈ s.pid.live) (hCa : Corner s a ia) (hCb : Corner s b ib) (hno : NoSwap s') :
    UpTree s' ∧ Free True s' ∧ NestSt s' := by
  obtain ⟨ow, lw, q, q', l, s1, s2, s3, hS, hF1, k1, k2, k3⟩ :=
    splitPoly_start hs h.inv.links ha hb h.free (fun _ => h.inv.qids) hCa hCb
  obtain ⟨hW1, hp⟩ := splitPoly_wires h.wires h.inv.wids hS hCa hCb
  obtain ⟨o1, o2, l1, l2, q1, q2, hwl, hql⟩ := hS.lives h hCa
  obtain ⟨hF, _⟩ := splitPoly_rest hF1 (fun _ => (hql _).2 (Or.inr rfl)) k1 k2 k3
  obtain ⟨hu2, hn2, hx⟩ := cut_nested hS h hW1 hCa k1
  have hsame := splitPoints_same k2
  have hid : s2.wid = s1.wid ∧ s2.qid = s1.qid := by
    unfold cut at k1
    split at k1
    · obtain ⟨C, rfl⟩ := cutOuter_eq k1
      exact ⟨rfl, rfl⟩
    · obtain ⟨iw, uw, C, inR, hiu, _, hpo, rfl⟩ := cutHole_eq k1
      exact ⟨rfl, rfl⟩
  have hsh3 : ∀ x y, Share s3 x y ↔ Share s2 x y := by
    obtain ⟨e1, e2⟩ := splitPoints_frame k2
    exact Share.congr e1 e2
  have hn3 : NestSt s3 := hn2.congr (by simp [hsame.wid]) (by simp [hsame.qid]) (by simp [hsame.par]) (by simp [hsame.wpo])
    (by simp [hsame.out]) hsh3
  have hq3 : q ∈ s3.qid.live := by rw [hsame.qid, hid.2]; exact (hql q).2 (Or.inl q1)
  have hq3' : q' ∈ s3.qid.live := by rw [hsame.qid, hid.2]; exact (hql q').2 (Or.inr rfl)
  have hqq : q ≠ q' := fun hh => q2 (hh ▸ q1)
  have hq0 : q' ≠ 0 := fun hh => q2 (hh ▸ h.nest.q0)
  obtain ⟨g1, g2⟩ := giveHoles_nested (q := q) (q' := q') k3 (hu2.same hsame) hn3 hq3 hq3' (hn3.out_ne hq3' hq0)
    (fun hh => hqq (hn3.out_inj hq3 hq3' hh)) (by
      rw [hsame.par, hsame.out]
      rcases hx with ⟨e1, e2, e3⟩ | ⟨iw, uw, e1, e2, e3⟩
      · rw [e1, e2]
        exact Or.inl e3
      · exact Or.inr ⟨uw, e2, e1 ▸ e3⟩) hno
  exact ⟨g1, hF, g2⟩

end

theorem rmWire_nested {e : Id} {s s' : St K} (hs : rmWire e s = .ok s') (h : Nested s) (he : e ∈ s.sid.live) (hW' : Wires s') :
    UpTree s' ∧ Free True s' ∧ NestSt s' := by
  obtain ⟨hD, _, hF, _, _, h1, h2, h3, h4, h5, _, w, q, h6, h7, h8, _⟩ :=
    rmWire_eff hs h.inv.links he h.free (fun _ w q hw hq => h.polyLive (d := (e, true)) he hw hq)
  obtain ⟨wl, _, _, hml⟩ := Ids.remove_ok h.inv.wids h8
  have hdead : ∀ d : HE, d.1 ∈ s'.sid.live → s.wire d ≠ some w := by
    intro d hd hh
    obtain ⟨x, x1, x2, _⟩ := hW'.lab d hd
    rw [h1, hh] at x1
    cases x1
    exact ((hml w).1 x2).1 rfl
  have hsd := share_del hD h1
  have hw0 : w ≠ 0 := by
    obtain ⟨x, x1, _, x3⟩ := h.wires.lab (e, true) he
    rw [h6] at x1
    cases x1
    exact x3
  have hlone : ∀ y, Share s w y → y = w := by
    intro y hy
    rcases (hsd w y).1 hy with ⟨d, d1, d2, _⟩ | ⟨v, d1, d2⟩
    · rw [h1] at d2
      exact absurd d2 (hdead d d1)
    · rw [h6] at d2
      exact (Option.some.inj d2).symm
  obtain ⟨_, hnp⟩ := h.nest.lone wl hw0 hlone
  obtain ⟨hu, _⟩ := rmWire_up hs h.tree (fun x r hr hx => by
      obtain ⟨r', r1, r2, _⟩ := h.nest.pols x hx
      rw [hr] at r2
      cases r2
      exact (h.nest.outs r r1).1) (fun x hx y hy _ => by
      rw [h6] at hx
      cases hx
      exact hnp y hy)
  refine ⟨hu, hF, ?_⟩
  have := h.nest.remove wl hw0 hlone (W' := (· ∈ s'.wid.live)) (sh' := Share s') (fun x => (hml x).trans and_comm) (fun x y => by
    rw [hsd x y]
    constructor
    · intro hh
      refine ⟨Or.inl hh, ?_⟩
      rintro rfl
      obtain ⟨d, d1, d2, _⟩ := hh
      rw [h1] at d2
      exact hdead d d1 d2
    · rintro ⟨hh | ⟨v, d1, _⟩, hx⟩
      · exact hh
      · rw [h6] at d1
        exact absurd (Option.some.inj d1).symm hx)
  unfold NestSt
  rw [h2, h3, h4, h5]
  exact this

theorem rmDendrite_nested {e : Id} {tip : Bool} {s s' : St K} (hs : wireRmDendrite e tip s = .ok s') (h : Nested s)
    (he : e ∈ s.sid.live) (ht : s.next (e, tip) = some (e, !tip)) (hr : s.next (e, !tip) ≠ some (e, tip)) :
    UpTree s' ∧ Free True s' ∧ NestSt s' := by
  obtain ⟨hD, _, hF, h0, h1, h2, h3, h4, h5, h6, h7, _⟩ :=
    rmDendrite_eff hs h.inv.links he h.free (fun _ w q hw hq => h.polyLive (d := (e, true)) he hw hq) ht hr
  have hu := h.tree.frame h2 h6 h7
  refine ⟨hu, hF, ?_⟩
  have hsd := share_del hD h1
  have := h.nest.loops (sh' := Share s') (fun x y hxy => Or.inl ((hsd x y).2 (Or.inl hxy))) (fun x y hxy => by
    rcases (hsd x y).1 hxy with k | ⟨v, k1, k2⟩
    · exact Or.inr k
    · refine Or.inl ?_
      cases v
      · rw [Bool.not_false, h0, k1] at k2
        exact Option.some.inj k2
      · rw [Bool.not_true, ← h0, k1] at k2
        exact Option.some.inj k2) (fun x y hxy => hxy.symm)
  unfold NestSt
  rw [h2, h3, h4, h5, h6]
  exact this

/-- The wires on the sides of a segment between two polygons. -/
theorem Nested.between {s : St K} (h : Nested s) {e lw rw lq rq : Id} (he : e ∈ s.sid.live) (h1 : s.wire (e, true) = some lw)
    (h2 : s.wire (e, false) = some rw) (hne : lw ≠ rw) (h3 : s.wpoly lw = some lq) (h4 : s.wpoly rw = some rq) :
    lq ≠ rq ∧ ((s.outer lq = lw ∧ s.outer rq = rw ∧ s.parent lw = s.parent rw) ∨
      (s.outer lq = lw ∧ s.outer rq ≠ rw ∧ s.parent lw = some rw) ∨ (s.outer rq = rw ∧ s.outer lq ≠ lw ∧ s.parent rw = some lw)) := by
  have hs := h.share (v := true) he h1 h2
  obtain ⟨wl, wr, _, _⟩ := h.nest.shw _ _ hs
  have ql := h.polyLive (d := (e, true)) he h1 h3
  have qr := h.polyLive (d := (e, false)) he h2 h4
  rcases h.nest.adj _ _ hs with k | ⟨k1, k2, k3⟩ | ⟨k1, k2, k3⟩ | ⟨k1, k2, k3⟩
  · exact absurd k hne
  · have a := h.nest.around h3 k1
    have b := h.nest.around h4 k2
    exact ⟨fun hh => hne (by rw [← a, ← b, hh]), Or.inl ⟨a, b, k3⟩⟩
  · have a := h.nest.around h3 k1
    refine ⟨fun hh => ?_, Or.inr (Or.inl ⟨a, fun hh => k2 ⟨rq, qr, hh⟩, k3⟩)⟩
    have := (h.nest.inner wr h4 k2).2
    rw [← hh, a] at this
    exact h.nest.swap wl k3 this
  · have a := h.nest.around h4 k1
    refine ⟨fun hh => ?_, Or.inr (Or.inr ⟨a, fun hh => k2 ⟨lq, ql, hh⟩, k3⟩)⟩
    have := (h.nest.inner wl h3 k2).2
    rw [hh, a] at this
    exact h.nest.swap wr k3 this

/-- The kept and the removed wire and polygon. -/
theorem JoinPoly.kinds {e lw rw lq rq q q' keep rm : Id} {l : List HE} {r0 r1 : HE} {s s' : St K}
    (hJ : JoinPoly s s' e lw rw lq rq q q' keep rm l r0 r1) (h : Nested s) (hne : lw ≠ rw) :
    keep ∈ s.wid.live ∧ keep ≠ 0 ∧ keep ≠ rm ∧ q' ∈ s.qid.live ∧ rm ≠ 0 ∧ rm ∈ s.wid.live ∧ s.wpoly keep = some q ∧ q ∈ s.qid.live ∧
      s.wpoly rm = some q' ∧ q ≠ q' ∧
      ((s.outer q = keep ∧ s.parent keep = s.parent rm) ∨ (s.outer q ≠ keep ∧ s.parent rm = some keep)) ∧
      ((lw = keep ∧ rw = rm) ∨ (lw = rm ∧ rw = keep)) := by
  have he := hJ.del.was
  have hs := h.share (v := true) he hJ.hlw hJ.hrw
  obtain ⟨wl, wr, nl, nr⟩ := h.nest.shw _ _ hs
  have ql := h.polyLive (d := (e, true)) he hJ.hlw hJ.hlq
  have qr := h.polyLive (d := (e, false)) he hJ.hrw hJ.hrq
  obtain ⟨hqq, hb⟩ := h.between he hJ.hlw hJ.hrw hne hJ.hlq hJ.hrq
  have hrm := hJ.hrm
  have i1 := hJ.hlq
  have i2 := hJ.hrq
  have hkind := hJ.kind
  clear hJ
  rcases hb with ⟨b1, b2, b3⟩ | ⟨b1, b2, b3⟩ | ⟨b1, b2, b3⟩ <;>
    rcases hkind with ⟨c1, c2, c3, rfl, rfl, rfl⟩ | ⟨c1, rfl, rfl, rfl⟩ | ⟨c1, rfl, rfl, rfl⟩
  · rw [b1] at hrm
    subst hrm
    exact ⟨wr, nr, hne.symm, ql, nl, wl, i2, qr, i1, hqq.symm, Or.inl ⟨b2, b3.symm⟩, Or.inr ⟨rfl, rfl⟩⟩
  · exact absurd (b3 ▸ c1) (h.nest.self wr)
  · exact absurd (b3 ▸ c1) (h.nest.self wl)
  · exact absurd (c1 ▸ b3) (h.nest.self wr)
  · rw [b1] at hrm
    subst hrm
    exact ⟨wr, nr, hne.symm, ql, nl, wl, i2, qr, i1, hqq.symm, Or.inr ⟨b2, b3⟩, Or.inr ⟨rfl, rfl⟩⟩
  · exact absurd c1 (h.nest.swap wl b3)
  · exact absurd (c1 ▸ b3) (h.nest.self wl)
  · exact absurd c1 (h.nest.swap wr b3)
  · rw [b1] at hrm
    subst hrm
    exact ⟨wl, nl, hne, qr, nr, wr, i1, ql, i2, hqq, Or.inr ⟨b2, b3⟩, Or.inl ⟨rfl, rfl⟩⟩

/-- The wire of each old side after the outer wire `rm` is joined to `keep`. -/
theorem JoinPoly.fold {e lw rw lq rq q q' keep rm : Id} {l : List HE} {r0 r1 : HE} {s s' : St K}
    (hJ : JoinPoly s s' e lw rw lq rq q q' keep rm l r0 r1) (h : Nested s) (hW' : Wires s') {d : HE} (hd : d.1 ∈ s'.sid.live) :
    ∃ x, s.wire d = some x ∧ s'.wire d = some (if x = rm then keep else x) := by
  obtain ⟨x, x1, x2, x3⟩ := h.wires.lab d ((hJ.del.live _).1 hd).2
  refine ⟨x, x1, ?_⟩
  have hd' := hJ.wir d
  by_cases hl : d ∈ l
  · rw [if_pos hl] at hd'
    have := hJ.old d hl
    rw [x1] at this
    rw [hd', if_pos (Option.some.inj this)]
  · rw [if_neg hl, x1] at hd'
    obtain ⟨y, y1, y2, _⟩ := hW'.lab d hd
    rw [hd'] at y1
    cases y1
    rw [hd', if_neg (((Ids.remove_ok h.inv.wids hJ.wid).2.2.2 x).1 y2).1]

theorem joinPoly_start {e : Id} {s s' : St K} (hs : joinPoly e s = .ok s') (h : Nested s) (he : e ∈ s.sid.live)
    (hn : ∀ v, s.next (e, v) ≠ some (e, !v)) (hd : s.wire (e, true) ≠ s.wire (e, false)) :
    Free True s' ∧ ∃ lw rw lq rq q q' keep rm l r0 r1, JoinPoly s s' e lw rw lq rq q q' keep rm l r0 r1 :=
  joinPoly_eff hs h.inv.links he h.free (fun _ v w q hw hq => h.polyLive (d := (e, v)) he hw hq) (fun _ => h.inv.qids)
    (fun _ w w' q q' h1 h2 h3 h4 => (h.between he h1 h2 (fun hh => hd (by rw [h1, h2, hh])) h3 h4).1) (hn false) (hn true)

theorem joinPoly_nested {e : Id} {s s' : St K} (hs : joinPoly e s = .ok s') (h : Nested s) (he : e ∈ s.sid.live)
    (hn : ∀ v, s.next (e, v) ≠ some (e, !v)) (hd : s.wire (e, true) ≠ s.wire (e, false)) (hW' : Wires s') :
    UpTree s' ∧ Free True s' ∧ NestSt s' := by
  obtain ⟨hF, lw, rw, lq, rq, q, q', keep, rm, l, r0, r1, hJ⟩ := joinPoly_start hs h he hn hd
  have hne : lw ≠ rw := fun hh => hd (by rw [hJ.hlw, hJ.hrw, hh])
  have hu := joinPoly_up hs h.tree (fun lw' rw' lq' rq' i1 i2 i3 i4 => by
    have hne' : lw' ≠ rw' := fun hh => hd (by rw [i1, i2, hh])
    obtain ⟨hqq, hb⟩ := h.between he i1 i2 hne' i3 i4
    obtain ⟨wl, wr, nl, nr⟩ := h.nest.shw _ _ (h.share (v := true) he i1 i2)
    have ql := h.polyLive (d := (e, true)) he i1 i3
    have qr := h.polyLive (d := (e, false)) he i2 i4
    have ol := (h.nest.outs _ ql).1
    have or' := (h.nest.outs _ qr).1
    refine ⟨ol, or', fun hh => hqq (h.nest.out_inj ql qr hh), fun h0 => ?_, fun h0 => ?_, h.nest.self ol, h.nest.self or'⟩
    · rcases hb with ⟨b1, b2, b3⟩ | ⟨b1, b2, b3⟩ | ⟨b1, b2, b3⟩
      · exact absurd (b1 ▸ h0) nl
      · exact absurd (b1 ▸ h0) nl
      · exact ⟨fun hh => h.nest.self wl (hh ▸ b3), h.nest.swap wr b3⟩
    · rcases hb with ⟨b1, b2, b3⟩ | ⟨b1, b2, b3⟩ | ⟨b1, b2, b3⟩
      · exact Or.inl b3
      · exact Or.inr b3
      · exact absurd (b1 ▸ h0) nr)
  refine ⟨hu, hF, ?_⟩
  obtain ⟨a1, a2, a3, a4, a5, a6, a7, a8, a9, a10, a11, a12⟩ := hJ.kinds h hne
  obtain ⟨_, _, _, hml⟩ := Ids.remove_ok h.inv.wids hJ.wid
  obtain ⟨_, _, _, hmq⟩ := Ids.remove_ok h.inv.qids hJ.qid
  have hch : ∀ w, w ∈ s.wid.live → w ≠ rm → (w ∈ s.childs rm ↔ s.parent w = some rm) := fun w hw hwr =>
    h.tree.childs_iff a6 hw hwr
  have := h.nest.merge (k := keep) (r := rm) (q := q) (q' := q') a1 a2 a3 a4 hJ.hrm.symm a5 a7 (by
      rcases a11 with ⟨b1, b2⟩ | ⟨b1, b2⟩
      · exact Or.inl ⟨⟨q, a8, b1⟩, b2⟩
      · exact Or.inr ⟨fun hh => b1 (h.nest.around a7 hh), b2⟩) (W' := (· ∈ s'.wid.live)) (Q' := (· ∈ s'.qid.live)) (par' := s'.parent)
    (pol' := s'.wpoly) (sh' := Share s') (fun w => (hml w).trans and_comm) (fun w => (hmq w).trans and_comm)
    (fun w hw hwr => by rw [hJ.parent w hwr]; simp only [hch w hw hwr])
    (fun w hw hwr => by rw [hJ.wpoly w]; simp only [hch w hw hwr])
    (fun x y hxy => by
      obtain ⟨d, d1, d2, d3⟩ := hxy
      obtain ⟨x0, x1, x2⟩ := hJ.fold h hW' (d := d) d1
      obtain ⟨y0, y1, y2⟩ := hJ.fold h hW' (d := flip d) d1
      rw [x2] at d2
      rw [y2] at d3
      exact ⟨x0, y0, ⟨d, ((hJ.del.live _).1 d1).2, x1, y1⟩, (Option.some.inj d2).symm, (Option.some.inj d3).symm⟩)
    (fun x0 y0 hxy => by
      obtain ⟨d, d1, d2, d3⟩ := hxy
      by_cases hde : d.1 = e
      · have hk : ∀ x, x = lw ∨ x = rw → (if x = rm then keep else x) = keep := by
          intro x hx
          rcases a12 with ⟨rfl, rfl⟩ | ⟨rfl, rfl⟩
          · rcases hx with rfl | rfl
            · rw [if_neg a3]
            · rw [if_pos rfl]
          · rcases hx with rfl | rfl
            · rw [if_pos rfl]
            · rw [if_neg a3]
        have hb : ∀ (c : HE) (x : Id), c.1 = e → s.wire c = some x → x = lw ∨ x = rw := by
          rintro ⟨c, v⟩ x hc hx
          dsimp only at hc
          subst hc
          cases v
          · rw [hJ.hrw] at hx
            exact Or.inr (Option.some.inj hx).symm
          · rw [hJ.hlw] at hx
            exact Or.inl (Option.some.inj hx).symm
        exact Or.inl ((hk x0 (hb d x0 hde d2)).trans (hk y0 (hb (flip d) y0 hde d3)).symm)
      · have hdl : d.1 ∈ s'.sid.live := (hJ.del.live _).2 ⟨hde, d1⟩
        obtain ⟨x, x1, x2⟩ := hJ.fold h hW' (d := d) hdl
        obtain ⟨y, y1, y2⟩ := hJ.fold h hW' (d := flip d) hdl
        rw [d2] at x1
        cases x1
        rw [d3] at y1
        cases y1
        exact Or.inr ⟨d, hdl, x2, y2⟩)
    (fun x y hxy => hxy.symm)
  unfold NestSt
  rw [hJ.outer]
  exact this

theorem init_nested : Nested (init : St K) := by
  have h1 := init_inv (K := K)
  refine ⟨h1, init_wires, init_up, ⟨h1.free.nd, h1.free.mem, h1.free.seg, fun _ p hp => by simp [init] at hp⟩, ?_⟩
  have hsh : ∀ x y, ¬ Share (init : St K) x y := by
    rintro x y ⟨d, hd, _⟩
    simp [init] at hd
  have hl : ∀ w, w ∈ (init : St K).wid.live ↔ w = 0 := by simp [init]
  have hq : ∀ w, w ∈ (init : St K).qid.live ↔ w = 0 := by simp [init]
  refine ⟨(hl 0).2 rfl, (hq 0).2 rfl, rfl, rfl, fun w hw h0 => absurd ((hl w).1 hw) h0, ?_, ?_, ?_, ?_,
    fun x y hxy => absurd hxy (hsh x y), fun x y hxy => absurd hxy (hsh x y), fun x y hxy => absurd hxy (hsh x y), ?_⟩
  · intro w hw
    rw [(hl w).1 hw]
    exact .root
  · intro q hq'
    rw [(hq q).1 hq']
    exact ⟨(hl 0).2 rfl, rfl⟩
  · intro w hw
    rw [(hl w).1 hw]
    exact ⟨0, (hq 0).2 rfl, rfl, Or.inl rfl⟩
  · exact fun q hq' h0 => absurd ((hq q).1 hq') h0
  · exact fun q hq' h0 => absurd ((hq q).1 hq') h0

theorem splitSegment_share {e n mid : Id} {s s' : St K} (hS : SplitSeg s s' e n mid) (x y : Id) : Share s' x y ↔ Share s x y := by
  have hne : ∀ d : HE, d.1 ∈ s.sid.live → d.1 ≠ n := fun d hd hh => hS.fresh (hh ▸ hd)
  constructor
  · rintro ⟨⟨d, v⟩, h1, h2, h3⟩
    by_cases hd : d = n
    · subst hd
      rw [hS.wn] at h2
      exact ⟨(e, v), hS.was, h2, (hS.wn (!v)) ▸ h3⟩
    · refine ⟨(d, v), ((hS.live d).1 h1).resolve_right hd, ?_, ?_⟩
      · rw [← hS.wo _ hd]; exact h2
      · rw [← hS.wo _ hd]; exact h3
  · rintro ⟨d, h1, h2, h3⟩
    exact ⟨d, (hS.live _).2 (Or.inl h1), by rw [hS.wo _ (hne d h1)]; exact h2, by rw [hS.wo _ (hne (flip d) h1)]; exact h3⟩

theorem joinSegments_share {x y : HE} {s s' : St K} (hW : Wires s) (hS : JoinSeg s s' x y) (hy : y.1 ∈ s.sid.live) (u w : Id) :
    Share s' u w ↔ Share s u w := by
  have hwire := joinSegments_label hW hS hy
  have w1 := (hW.next_wire hS.was hS.nx).2
  have w2 := (hW.next_wire (x := flip y) hy hS.ny).2
  unfold Share
  rw [hwire]
  constructor
  · rintro ⟨d, h1, h2, h3⟩
    exact ⟨d, ((hS.live _).1 h1).2, h2, h3⟩
  · rintro ⟨d, h1, h2, h3⟩
    by_cases hd : d.1 = y.1
    · have hx : x.1 ∈ s'.sid.live := (hS.live _).2 ⟨hS.ne, hS.was⟩
      have : d = y ∨ d = flip y := by
        obtain ⟨d1, v⟩ := d
        obtain ⟨y1, v'⟩ := y
        dsimp only at hd
        subst hd
        cases v <;> cases v' <;> simp [flip]
      rcases this with rfl | rfl
      · exact ⟨x, hx, by rw [← w1]; exact h2, by rw [w2]; exact h3⟩
      · rw [flip_flip] at h3
        exact ⟨flip x, hx, by rw [w2]; exact h2, by rw [flip_flip, ← w1]; exact h3⟩
    · exact ⟨d, (hS.live _).2 ⟨hd, h1⟩, h2, h3⟩

end Verif.Decomp
