import Verif.Plane.Merge
import Verif.Decomp.Keep

/-! The operations keep the polygons beside the sides right. -/

namespace Verif.Decomp
open Verif.Plane

section
variable {K : Type} [Field K] [LinearOrder K]

/-- Free points are registered in the polygon they are in. -/
def Reg (s : St K) : Prop := ∀ p ∈ s.pid.live, ∀ q, s.ppoly p = some q → Exact s (s.xy p) q

theorem Exact.frame {s t : St K} {x : K × K} {q : Id} (h : Exact s x q) (h1 : t.wid = s.wid) (h2 : cnt t x = cnt s x)
    (h3 : t.parent = s.parent) (h4 : t.outer = s.outer) : Exact t x q := by
  intro w hw
  rw [h2, h3, h4]
  exact h w (h1 ▸ hw)

/-- A wire without sides does not count. -/
theorem Exact.extra {s t : St K} {n : Id} (h : NestSt s) (hn : n ∉ s.wid.live) (hn0 : n ≠ 0) (h1 : ∀ w, w ∈ t.wid.live ↔ w ∈ s.wid.live ∨ w = n)
    (h3 : ∀ w, w ≠ n → t.parent w = s.parent w) (h4 : t.outer = s.outer) {x : K × K} (h2 : cnt t x = cnt s x) (h5 : cnt s x n = 0)
    {q : Id} (hq : q ∈ s.qid.live) : Exact t x q ↔ Exact s x q := by
  have hc : ∀ w, Anc t.parent (s.outer q) w ↔ Anc s.parent (s.outer q) w := fun w =>
    anc_congr (W := (· ∈ s.wid.live)) h.closed (fun w hw => h3 w fun hh => hn (hh ▸ hw)) (h.outs q hq).1
  unfold Exact
  simp only [h1, h2, h4, hc]
  constructor
  · exact fun k w hw => k w (Or.inl hw)
  · rintro k w (hw | rfl)
    · exact k w hw
    · rw [h5]
      simp only [hn0, false_or, zero_ne_one, false_iff]
      exact fun hh => hn (anc_live h.closed (h.outs q hq).1 hh)

variable [IsStrictOrderedRing K] {g : Geom K}

/-- From a point that sees a side to an end of the segment that is on no other segment. -/
theorem clear_end {s t : St K} {e : Id} (hP : Plus s t e) (hL : Links t ∅ ∅) (hpl : Planar t) {d : HE} (hd : d.1 = e)
    (hfree : ∀ m : HE, m.1 ∈ s.sid.live → t.vtx m ≠ t.vtx d) {x : K × K} (hx : Sees t d x) :
    ∃ z, Clear s x z ∧ Clear s z (t.xy (t.vtx d)) := by
  obtain ⟨τ, t0, t1, hs⟩ := hx.sight
  refine ⟨onDart t d τ, fun j hj => ?_, fun j hj => ?_⟩
  · exact (hP.segApart hj).1 (hs j (hP.live j hj) fun hh => hP.fresh ((hh.trans hd) ▸ hj)).swapR
  · refine (hP.segApart hj).1 ?_
    have hne : j ≠ d.1 := fun hh => hP.fresh ((hh.trans hd) ▸ hj)
    rintro r ⟨u, u0, u1, rfl⟩ ⟨y, y0, y1, hr⟩
    have e1 : dst t d = t.xy (t.vtx d) := rfl
    have hz : parametric (onDart t d τ) (dir (onDart t d τ) (t.xy (t.vtx d))) y = onDart t d (τ + y * (1 - τ)) := by
      rw [← e1]
      simp only [onDart, parametric, dir]; ext <;> ring
    have b0 : 0 < τ + y * (1 - τ) := add_pos_of_pos_of_nonneg t0 (mul_nonneg y0 (by linarith))
    have b1 : τ + y * (1 - τ) ≤ 1 := by
      have := mul_le_mul_of_nonneg_right y1 (show (0 : K) ≤ 1 - τ by linarith)
      linarith
    rw [hz, onDart_seg] at hr
    obtain ⟨v, v', h1, h2⟩ := hpl.meet d.1 hx.live j (hP.live j hj) (Ne.symm hne) (if d.2 then τ + y * (1 - τ) else 1 - (τ + y * (1 - τ))) u
      (by split_ifs <;> linarith) (by split_ifs <;> linarith) u0 u1 hr.symm
    -- the common end is not `d`, so it is the other end, which is at the parameter 0
    by_cases hv : v = d.2
    · subst hv
      exact hfree (j, v') hj h1.symm
    · have hv' : v = !d.2 := by cases v <;> cases hd2 : d.2 <;> simp_all
      subst hv'
      have e2 : t.xy (t.vtx (d.1, !d.2)) = onDart t d 0 := by simp [onDart, parametric, org, flip]
      rw [← onDart_seg, e2] at h2
      have hne2 := ends_ne' hL hpl hx.live
      have h3 : onDart t d 0 = org t d := by simp [onDart, parametric]
      rw [h3] at h2
      refine (dir_ne hne2) ?_
      have a1 := congrArg Prod.fst h2
      have a2 := congrArg Prod.snd h2
      simp only [onDart, parametric] at a1 a2
      have c1 : (τ + y * (1 - τ)) * (dir (org t d) (dst t d)).1 = 0 := by linarith
      have c2 : (τ + y * (1 - τ)) * (dir (org t d) (dst t d)).2 = 0 := by linarith
      exact Prod.ext ((mul_eq_zero.1 c1).resolve_left b0.ne') ((mul_eq_zero.1 c2).resolve_left b0.ne')

/-- A new wire in the polygon of its points. -/
theorem newWire_good (hg : ArgOk g) {q a b e : Id} {s s' : St K} (hs : newWire q a b s = .ok (e, s')) (h : Drawn g s) (hG : Good s)
    (h' : Drawn g s') (ha : a ∈ s.pid.live) (hb : b ∈ s.pid.live) (pa : s.pseg a = none) (pb : s.pseg b = none) (hq : q ∈ s.qid.live)
    (hR : Exact s (s.xy b) q) : Good s' ∧ ∀ x q, q ∈ s.qid.live → (Exact s' x q ↔ Exact s x q) := by
  have hN := h.nested
  obtain ⟨hA, _, _, _, h1, h2, h3, h4, h5, h6, h7, h8⟩ := newWire_eff hs hN.inv.links ha hb hN.free pa pb
  obtain ⟨k1, k2, k3⟩ := Ids.append_ok hN.inv.wids
  have hP := hA.plus
  have n0 : s.wid.append.1 ≠ 0 := fun hh => k1 (hh ▸ hN.nest.w0)
  have hc : ∀ x, cnt s' x = cnt s x := hP.same
    (fun d hd => ((h7 d fun hh => hP.fresh (hh ▸ hd)).1).symm) (by rw [(h8 false).1, (h8 true).1])
  have hz : ∀ x, cnt s x s.wid.append.1 = 0 := fun x => cnt_none fun d hd hh => by
    obtain ⟨w, w1, w2, _⟩ := hN.wires.lab d hd
    rw [hh] at w1
    cases w1
    exact k1 w2
  have hE : ∀ x q, q ∈ s.qid.live → (Exact s' x q ↔ Exact s x q) := fun x q hq =>
    Exact.extra hN.nest k1 n0 (fun w => by rw [h1, k2]; simp) (fun w hw => by rw [h5]; simp [upd, hw]) h3 (hc x) (hz x) hq
  refine ⟨fun w => ?_, hE⟩
  by_cases hw : w = s.wid.append.1
  · subst hw
    have hel : e ∈ s'.sid.live := (hA.live e).2 (Or.inr rfl)
    obtain ⟨x, hx⟩ := sees_ex h'.links h'.planar (d := (e, true)) hel
    refine goodW_of_one hg h' hx (h8 true).1 (by rw [h4]; simp [upd]) ((hE _ q hq).2 ?_)
    obtain ⟨z, z1, z2⟩ := clear_end hP h'.links h'.planar (d := (e, true)) rfl (fun m hm hh => by
      rw [hA.vo m (fun k => hP.fresh (k ▸ hm)), hA.v1] at hh
      exact hN.inv.links.no_seg hb (by simp) pb m hm hh) hx
    rw [hA.v1, hA.xy] at z2
    exact hR.congr ((cnt_path hN.inv.links hN.wires z1).trans (cnt_path hN.inv.links hN.wires z2)).symm
  · intro d x q1 hx hw' hq1
    have hde : d.1 ≠ e := fun hh => hw (by
      have := (h8 d.2).1
      rw [show ((e, d.2) : HE) = d by rw [← hh], hw'] at this
      exact Option.some.inj this)
    have hd : d.1 ∈ s.sid.live := ((hA.live _).1 hx.live).resolve_right hde
    rw [(h7 d hde).1] at hw'
    rw [h4] at hq1
    simp only [upd, Function.update_of_ne hw] at hq1
    have hx' := hP.sees hd hx
    exact (hE x q1 (hN.polyLive hd hw' hq1)).2 (hG w d x q1 hx' hw' hq1)

/-- Sides of segments that were there are seen from the same points. -/
theorem goodW_old (hg : ArgOk g) {s t : St K} (hS : Sub s t) (h' : Drawn g t) {d : HE} (hd : d.1 ∈ s.sid.live) {w q : Id}
    (hw : t.wire d = some w) (hq : t.wpoly w = some q) (he : ∀ x, Sees s d x → Exact t x q) : GoodW t w := by
  obtain ⟨x, hx⟩ := sees_ex h'.links h'.planar (d := d) (hS.live _ hd)
  exact goodW_of_one hg h' hx hw hq (he x (hS.sees hd hx))

/-- A segment attached with one end. -/
theorem addDendrite_good (hg : ArgOk g) {a b e : Id} {i : Ins} {root : Bool} {s s' : St K}
    (hs : wireAddDendrite a b i root s = .ok (e, s')) (h : Drawn g s) (hG : Good s) (h' : Drawn g s')
    (ha : a ∈ s.pid.live) (hb : b ∈ s.pid.live) (hC : Corner s (if root then b else a) i) (hp : s.pseg (if root then a else b) = none) :
    Good s' ∧ ∀ x q, Exact s' x q ↔ Exact s x q := by
  have hN := h.nested
  obtain ⟨hA, _, hF, _, h1, h2, h3, h4, h5, h6, h7, h8, _⟩ := addDendrite_eff hs hN.inv.links ha hb hN.free hC hp
  have hP := hA.plus
  have hc : ∀ x, cnt s' x = cnt s x := hP.same
    (fun d hd => ((h7 d fun hh => hP.fresh (hh ▸ hd)).1).symm) (by rw [h8 false, h8 true])
  have hE : ∀ x q, Exact s' x q ↔ Exact s x q := fun x q =>
    ⟨fun k => k.frame h1.symm (hc x).symm h5.symm h3.symm, fun k => k.frame h1 (hc x) h5 h3⟩
  refine ⟨fun w d x q hx hw hq => ?_, hE⟩
  -- a side of the wire that was there
  obtain ⟨d0, hd0, hw0⟩ : ∃ d0 : HE, d0.1 ∈ s.sid.live ∧ s'.wire d0 = some w := by
    rcases (hA.live _).1 hx.live with hd | hd
    · exact ⟨d, hd, hw⟩
    · refine ⟨i.1, hC.live, ?_⟩
      have := h8 d.2
      rw [show ((e, d.2) : HE) = d by rw [← hd], hw] at this
      rw [(h7 _ fun hh => hP.fresh (hh ▸ hC.live)).1, this]
      exact hC.wir.symm
  exact goodW_old hg hP.toSub h' hd0 hw0 hq (fun y hy => (hE y q).2 (hG w d0 y q hy
    (by rw [← (h7 _ fun hh => hP.fresh (hh ▸ hd0)).1]; exact hw0) (h4 ▸ hq))) d x q hx hw hq

theorem fold_keep {k r x : Id} : fold k r k x = if x = r then k else x := by
  unfold fold
  by_cases h1 : x = r
  · simp [h1]
  · by_cases h2 : x = k <;> simp [h1, h2]

/-- What `joinWires` does to the wires. -/
theorem joinWires_parts {a b e : Id} {ia ib : Ins} {s s' : St K} (hs : joinWires a b ia ib s = .ok (e, s')) (h : Nested s)
    (hW' : Wires s') (ha : a ∈ s.pid.live) (hb : b ∈ s.pid.live) (hCa : Corner s a ia) (hCb : Corner s b ib) :
    AddSeg s s' e a b ∧ ∃ q keep rm, keep ∈ s.wid.live ∧ keep ≠ 0 ∧ s.wpoly keep = some q ∧ rm ∈ s.wid.live ∧ rm ≠ 0 ∧
      s.wpoly rm = some q ∧ keep ≠ rm ∧ s.outer q ≠ rm ∧ s'.outer = s.outer ∧ s'.qid = s.qid ∧ s'.wpoly = s.wpoly ∧
      (∀ w, w ∈ s'.wid.live ↔ w ≠ rm ∧ w ∈ s.wid.live) ∧
      (∀ d : HE, d.1 ∈ s.sid.live → ∃ x, s.wire d = some x ∧ s'.wire d = some (if x = rm then keep else x)) ∧
      (∀ v, s'.wire (e, v) = some keep) ∧
      (∀ w, w ∈ s.wid.live → s'.parent w = if s.parent w = some rm then (if s.outer q = keep then s.parent keep else some keep)
        else s.parent w) ∧ ∃ d : HE, d.1 ∈ s.sid.live ∧ s'.wire d = some keep := by
  obtain ⟨hA, _, hF, hS, aw, bw, q, keep, rm, l, rp, k1, k2, k3, p1, p2, k4, k5, k5', k6, k7, k8, k9, r1, r2, r3, k10, k11, _, _⟩ :=
      joinWires_eff hs h.inv.links ha hb h.free hCa hCb
  have gaw : s.wire ia.1 = some aw := hCa.wir.symm.trans k1
  have gbw : s.wire ib.1 = some bw := hCb.wir.symm.trans k2
  obtain ⟨_, ga, gal, ga0⟩ := h.wires.lab ia.1 hCa.live
  obtain rfl := Option.some.inj (gaw.symm.trans ga)
  obtain ⟨_, gb, gbl, gb0⟩ := h.wires.lab ib.1 hCb.live
  obtain rfl := Option.some.inj (gbw.symm.trans gb)
  have hout : s.outer q = keep ∨ (s.outer q ≠ aw ∧ s.outer q ≠ bw) := by
    rcases k4 with ⟨e1, e2, e3⟩ | ⟨e1, e2, e3⟩
    · exact Or.inl (e1 ▸ e3)
    · by_cases hh : s.outer q = bw
      · exact Or.inl (e1 ▸ hh)
      · exact Or.inr ⟨e3, hh⟩
  have hor : (s.outer q = aw ∨ s.outer q = bw) ↔ s.outer q = keep := by
    constructor
    · intro hh
      rcases hout with k | k
      · exact k
      · exact (hh.elim k.1 k.2).elim
    · intro hh
      rw [hh]
      rcases k4 with ⟨e1, e2, e3⟩ | ⟨e1, e2, e3⟩
      · exact Or.inl e1
      · exact Or.inr e1
  have hoeq : s'.outer = s.outer := by
    rw [r2]
    split
    · next hh =>
      rw [hor] at hh
      rw [← hh]
      exact Function.update_eq_self _ _
    · rfl
  have hkl : keep ∈ s.wid.live ∧ keep ≠ 0 ∧ s.wpoly keep = some q ∧ rm ∈ s.wid.live ∧ rm ≠ 0 ∧ s.wpoly rm = some q ∧ keep ≠ rm ∧
      s.outer q ≠ rm ∧ ∃ d : HE, d.1 ∈ s.sid.live ∧ s.wire d = some keep := by
    rcases k4 with ⟨rfl, rfl, e3⟩ | ⟨rfl, rfl, e3⟩
    · exact ⟨gal, ga0, p1, gbl, gb0, p2, k3, by rw [e3]; exact k3, ia.1, hCa.live, gaw⟩
    · exact ⟨gbl, gb0, p2, gal, ga0, p1, k3.symm, e3, ib.1, hCb.live, gbw⟩
  obtain ⟨a1, a2, a3, a4, a5, a6, a7, a8, d0, hd0, hk0⟩ := hkl
  have hne : ∀ d : HE, d.1 ∈ s.sid.live → d.1 ≠ e := fun d hd hh => hA.fresh (hh ▸ hd)
  obtain ⟨_, _, _, hrm⟩ := Ids.remove_ok h.inv.wids k9
  have hph : ∀ d : HE, d.1 ∈ s.sid.live → ∃ x, s.wire d = some x ∧ s'.wire d = some (if x = rm then keep else x) := by
    intro d hd
    obtain ⟨x, x1, x2, x3⟩ := h.wires.lab d hd
    refine ⟨x, x1, ?_⟩
    have hd' := k6 d (hne d hd)
    by_cases hl : d ∈ l
    · rw [if_pos hl] at hd'
      have := k5' d hl (hne d hd)
      rw [x1] at this
      rw [hd', if_pos (Option.some.inj this)]
    · rw [if_neg hl, x1] at hd'
      obtain ⟨y, y1, y2, _⟩ := hW'.lab d ((hA.live _).2 (Or.inl hd))
      rw [hd'] at y1
      cases y1
      rw [hd', if_neg ((hrm x).1 y2).1]
  have he1 : s'.wire (e, true) = some keep := by
    refine k8 ?_
    rcases k5 with ⟨hh, _⟩ | ⟨_, l1, ⟨e1, e2, _⟩ | ⟨e1, _⟩⟩
    · exact absurd hh (h.wires.par rm a4 a5)
    · cases l with
      | nil => exact absurd rfl l1
      | cons d l =>
        refine Or.inl ?_
        have : d = (e, true) := e2.1.symm
        simp [this]
    · exact Or.inr e1
  have hev : ∀ v, s'.wire (e, v) = some keep := fun v => by cases v; exacts [k7, he1]
  have hpar : ∀ w, w ∈ s.wid.live → s'.parent w = if s.parent w = some rm then (if s.outer q = keep then s.parent keep else some keep)
      else s.parent w := by
    intro w hw
    rw [k11]
    simp only [hor]
    by_cases hwr : w = rm
    · subst hwr
      rw [if_neg fun hh => h.nest.self a4 (h.tree.child a4 hh).2, if_neg (h.nest.self a4)]
    · simp only [h.tree.childs_iff a4 hw hwr]
  refine ⟨hA, q, keep, rm, a1, a2, a3, a4, a5, a6, a7, a8, hoeq, r1, r3, hrm, hph, hev, hpar, d0, hd0, ?_⟩
  obtain ⟨x, x1, x2⟩ := hph d0 hd0
  rw [hk0] at x1
  cases x1
  rw [x2, if_neg a7]

/-- Two wires of one polygon are joined. -/
theorem joinWires_good (hg : ArgOk g) {a b e : Id} {ia ib : Ins} {s s' : St K} (hs : joinWires a b ia ib s = .ok (e, s'))
    (h : Drawn g s) (hG : Good s) (h' : Drawn g s') (ha : a ∈ s.pid.live) (hb : b ∈ s.pid.live) (hCa : Corner s a ia)
    (hCb : Corner s b ib) : Good s' ∧ ∀ x q, q ∈ s.qid.live → Exact s x q → Exact s' x q := by
  have hN := h.nested
  obtain ⟨hA, q, keep, rm, a1, a2, a3, a4, a5, a6, a7, a8, ho, hQ, hp, hwl, hph, hev, hpar, d0, hd0, hk0⟩ :=
    joinWires_parts hs hN h'.nested.wires ha hb hCa hCb
  have hP := hA.plus
  have hinn : ∀ w, w ∈ s.wid.live → s.wpoly w = some q → s.outer q ≠ w → s.parent w = some (s.outer q) := fun w hw hp hn =>
    (hN.nest.inner hw hp fun hh => hn (hN.nest.around hp hh)).2
  obtain ⟨pk, hpk, _⟩ := hN.nest.up keep a1 a2
  have hM : Merge (· ∈ s.wid.live) s.parent s'.parent keep rm keep rm
      (fun c => if c = rm then (if s.outer q = keep then pk else keep) else c) := by
    have hrm := hinn rm a4 a6 a8
    refine ⟨a7, a2, a5, Or.inl ⟨rfl, rfl⟩, if_neg a7, fun c _ hc => if_neg hc, ?_, ?_, fun c hc c1 c2 => ?_⟩
    · by_cases hk : s.outer q = keep
      · refine Or.inr ⟨hk ▸ hrm, ?_⟩
        simp [hk, hpk]
      · refine Or.inl ⟨(hinn keep a1 a3 hk).trans hrm.symm, ?_⟩
        simp [hk]
    · rw [hpar keep a1, if_neg]
      intro hh
      by_cases hk : s.outer q = keep
      · exact hN.nest.swap a1 hh (hk ▸ hrm)
      · exact a8 (Option.some.inj ((hinn keep a1 a3 hk).symm.trans hh))
    · rw [hpar c hc]
      obtain ⟨p, hpc⟩ : ∃ p, s.parent c = some p ∨ c = 0 := by
        by_cases c0 : c = 0
        · exact ⟨0, Or.inr c0⟩
        · obtain ⟨p, hp, _⟩ := hN.nest.up c hc c0
          exact ⟨p, Or.inl hp⟩
      rcases hpc with hpc | rfl
      · rw [hpc]
        by_cases hpr : p = rm
        · subst hpr
          by_cases hk : s.outer q = keep <;> simp [hk, hpk]
        · simp [hpr]
      · rw [hN.nest.p0]; rfl
  have hc : ∀ x w, w ≠ rm → cnt s' x w = if w = keep then cnt s x keep + cnt s x rm else cnt s x w := by
    intro x w hw
    rw [hP.more a7 (k := keep) (Or.inl rfl) (fun d hd => by
      obtain ⟨y, y1, y2⟩ := hph d hd
      exact ⟨y, y1, by rw [fold_keep]; exact y2⟩) (by rw [hev, hev]) x w]
    by_cases hk : w = keep
    · rw [if_pos hk, if_pos hk]
    · rw [if_neg hk, if_neg hk, if_neg]
      simp [hk, hw]
  have hE : ∀ x q0, q0 ∈ s.qid.live → Exact s x q0 → Exact s' x q0 := by
    intro x q0 hq0 he
    refine hM.exact hN.nest a1 a4 (fun w hw => ⟨((hwl w).1 hw).2, ((hwl w).1 hw).1⟩) (hc x) hq0 ?_ he
    rw [ho, if_neg]
    intro hh
    have := (hN.nest.outs q0 hq0).2
    rw [hh, a6] at this
    cases this
    exact a8 hh
  refine ⟨fun w d x q1 hx hw hq1 => ?_, hE⟩
  obtain ⟨d1, hd1, hw1⟩ : ∃ d0 : HE, d0.1 ∈ s.sid.live ∧ s'.wire d0 = some w := by
    rcases (hA.live _).1 hx.live with hd | hd
    · exact ⟨d, hd, hw⟩
    · refine ⟨d0, hd0, ?_⟩
      have := hev d.2
      rw [show ((e, d.2) : HE) = d by rw [← hd], hw] at this
      rw [hk0, this]
  refine goodW_old hg hP.toSub h' hd1 hw1 hq1 (fun y hy => ?_) d x q1 hx hw hq1
  obtain ⟨z, z1, z2⟩ := hph d1 hd1
  rw [hw1] at z2
  rw [hp] at hq1
  have hz : s.wpoly z = some q1 := by
    by_cases hzr : z = rm
    · rw [if_pos hzr] at z2
      rw [Option.some.inj z2, a3] at hq1
      rw [hzr, a6, hq1]
    · rw [if_neg hzr] at z2
      rw [← Option.some.inj z2]
      exact hq1
  exact hE y q1 (hN.polyLive hd1 z1 hz) (hG z d1 y q1 hy z1 hz)

/-- Sides of segments that remain. -/
theorem goodW_less (hg : ArgOk g) {s t : St K} (hS : Sub t s) (h : Drawn g s) (h' : Drawn g t) {d : HE} (hd : d.1 ∈ t.sid.live) {w q : Id}
    (hw : t.wire d = some w) (hq : t.wpoly w = some q) (he : ∀ x, Sees s d x → Exact t x q) : GoodW t w := by
  obtain ⟨x, hx⟩ := sees_ex h.links h.planar (d := d) (hS.live _ hd)
  exact goodW_of_one hg h' (hS.sees hd hx) hw hq (he x hx)

/-- A wire of one segment is removed. -/
theorem rmWire_good (hg : ArgOk g) {e : Id} {s s' : St K} (hs : rmWire e s = .ok s') (h : Drawn g s) (hG : Good s) (h' : Drawn g s')
    (he : e ∈ s.sid.live) : Good s' ∧ ∀ x q, q ∈ s.qid.live → (Exact s' x q ↔ Exact s x q) := by
  have hN := h.nested
  obtain ⟨hD, _, hF, _, _, h1, h2, h3, h4, h5, _, w, q, h6, h7, h8, _⟩ :=
    rmWire_eff hs hN.inv.links he hN.free (fun _ w q hw hq => hN.polyLive (d := (e, true)) he hw hq)
  obtain ⟨wl, _, wn, hml⟩ := Ids.remove_ok hN.inv.wids h8
  have hP := hD.plus
  have hw0 : w ≠ 0 := by
    obtain ⟨x, x1, _, x3⟩ := hN.wires.lab (e, true) he
    rw [h6] at x1
    cases x1
    exact x3
  have hwn : w ∉ s'.wid.live := fun hh => ((hml w).1 hh).1 rfl
  have hc : ∀ x, cnt s x = cnt s' x := hP.same (fun d _ => by rw [h1]) (by rw [h6, h6])
  have hz : ∀ x, cnt s' x w = 0 := fun x => cnt_none fun d hd hh => by
    obtain ⟨y, y1, y2, _⟩ := h'.nested.wires.lab d hd
    rw [hh] at y1
    cases y1
    exact hwn y2
  have hE : ∀ x q, q ∈ s.qid.live → (Exact s' x q ↔ Exact s x q) := fun x q hq =>
    (Exact.extra (s := s') (t := s) h'.nested.nest hwn hw0 (fun y => by
      rw [hml]
      by_cases hy : y = w
      · simp [hy, wl]
      · simp [hy]) (fun y _ => by rw [h5]) h3.symm (hc x) (hz x) (h2 ▸ hq)).symm
  refine ⟨fun w' d x q' hx hw hq => ?_, hE⟩
  have hd := ((hD.live _).1 hx.live).2
  have hw1 : s.wire d = some w' := h1 ▸ hw
  have hq1 : s.wpoly w' = some q' := h4 ▸ hq
  exact goodW_less hg hP.toSub h h' hx.live hw hq
    (fun y hy => (hE y q' (hN.polyLive hd hw1 hq1)).2 (hG w' d y q' hy hw1 hq1)) d x q' hx hw hq

/-- A segment with a free end is removed. -/
theorem rmDendrite_good (hg : ArgOk g) {e : Id} {tip : Bool} {s s' : St K} (hs : wireRmDendrite e tip s = .ok s') (h : Drawn g s)
    (hG : Good s) (h' : Drawn g s') (he : e ∈ s.sid.live) (ht : s.next (e, tip) = some (e, !tip))
    (hr : s.next (e, !tip) ≠ some (e, tip)) : Good s' ∧ ∀ x q, Exact s' x q ↔ Exact s x q := by
  have hN := h.nested
  obtain ⟨hD, _, hF, h0, h1, h2, h3, h4, h5, h6, h7, _⟩ :=
    rmDendrite_eff hs hN.inv.links he hN.free (fun _ w q hw hq => hN.polyLive (d := (e, true)) he hw hq) ht hr
  have hP := hD.plus
  have hc : ∀ x, cnt s x = cnt s' x := hP.same (fun d _ => by rw [h1]) h0.symm
  have hE : ∀ x q, Exact s' x q ↔ Exact s x q := fun x q =>
    ⟨fun k => k.frame h2.symm (hc x) h6.symm h4.symm, fun k => k.frame h2 (hc x).symm h6 h4⟩
  refine ⟨fun w' d x q' hx hw hq => ?_, hE⟩
  have hw1 : s.wire d = some w' := h1 ▸ hw
  have hq1 : s.wpoly w' = some q' := h5 ▸ hq
  exact goodW_less hg hP.toSub h h' hx.live hw hq (fun y hy => (hE y q').2 (hG w' d y q' hy hw1 hq1)) d x q' hx hw hq

/-- Two polygons become one. -/
theorem JoinPoly.good (hg : ArgOk g) {e lw rw lq rq q q' keep rm : Id} {l : List HE} {r0 r1 : HE} {s s' : St K}
    (hJ : JoinPoly s s' e lw rw lq rq q q' keep rm l r0 r1) (hne : lw ≠ rw) (h : Drawn g s)
    (hG : Good s) (h' : Drawn g s') : Good s' ∧ ∀ x q0, q0 ∈ s.qid.live → Exact s x q0 → Exact s' x (if q0 = q' then q else q0) := by
  have hN := h.nested
  obtain ⟨a1, a2, a3, a4, a5, a6, a7, a8, a9, a10, a11, a12⟩ := hJ.kinds hN hne
  obtain ⟨_, _, _, hml⟩ := Ids.remove_ok hN.inv.wids hJ.wid
  have hP := hJ.del.plus
  have hch : ∀ w, w ∈ s.wid.live → w ≠ rm → (w ∈ s.childs rm ↔ s.parent w = some rm) := fun w hw hwr =>
    hN.tree.childs_iff a6 hw hwr
  have hkr : s.parent keep ≠ some rm := by
    intro hh
    rcases a11 with ⟨b1, b2⟩ | ⟨b1, b2⟩
    · exact hN.nest.self a6 (b2 ▸ hh)
    · exact hN.nest.swap a1 hh b2
  have hM : Merge (· ∈ s.wid.live) s.parent s'.parent keep rm keep rm (fun c => if c = rm then s.outer q else c) := by
    refine ⟨a3, a2, a5, Or.inl ⟨rfl, rfl⟩, if_neg a3, fun c _ hc => if_neg hc, ?_, ?_, fun c hc c1 c2 => ?_⟩
    · rcases a11 with ⟨b1, b2⟩ | ⟨b1, b2⟩
      · exact Or.inl ⟨b2, by simp [b1]⟩
      · refine Or.inr ⟨b2, ?_⟩
        simp only [if_true]
        exact (hN.nest.inner a1 a7 fun hh => b1 (hN.nest.around a7 hh)).2
    · rw [hJ.parent keep a3, if_neg]
      rw [hch keep a1 a3]
      exact hkr
    · rw [hJ.parent c c2]
      simp only [hch c hc c2]
      by_cases c0 : c = 0
      · rw [c0, hN.nest.p0]; rfl
      · obtain ⟨p, hp, _⟩ := hN.nest.up c hc c0
        rw [hp]
        by_cases hpr : p = rm <;> simp [hpr]
  have hc : ∀ x w, w ≠ rm → cnt s' x w = if w = keep then cnt s x keep + cnt s x rm else cnt s x w := by
    intro x w hw
    rw [hP.less a3 (k := keep) (Or.inl rfl) (fun d hd => by
      obtain ⟨y, y1, y2⟩ := hJ.fold hN h'.nested.wires hd
      exact ⟨y, y1, by rw [fold_keep]; exact y2⟩) (fun v => by
        rcases a12 with ⟨b1, b2⟩ | ⟨b1, b2⟩
        · cases v
          · exact Or.inr (b2 ▸ hJ.hrw)
          · exact Or.inl (b1 ▸ hJ.hlw)
        · cases v
          · exact Or.inl (b2 ▸ hJ.hrw)
          · exact Or.inr (b1 ▸ hJ.hlw)) x w]
    by_cases hk : w = keep
    · rw [if_pos hk, if_pos hk]
    · rw [if_neg hk, if_neg hk, if_neg]
      simp [hk, hw]
  have hE : ∀ x q0, q0 ∈ s.qid.live → Exact s x q0 → Exact s' x (if q0 = q' then q else q0) := by
    intro x q0 hq0 hex
    refine hM.exact hN.nest a1 a6 (fun w hw => ⟨((hml w).1 hw).2, ((hml w).1 hw).1⟩) (hc x) hq0 ?_ hex
    rw [hJ.outer, hJ.hrm]
    by_cases hqq : q0 = q'
    · simp [hqq]
    · rw [if_neg hqq, if_neg fun hh => hqq (hN.nest.out_inj hq0 a4 hh)]
  refine ⟨fun w d x q1 hx hw hq1 => ?_, hE⟩
  have hd := ((hJ.del.live _).1 hx.live).2
  obtain ⟨z, z1, z2⟩ := hJ.fold hN h'.nested.wires hx.live
  obtain ⟨z', q0, y1, zl, _, y2, y3⟩ := hN.side hd
  rw [z1] at y1
  cases y1
  have hq0 : q1 = if q0 = q' then q else q0 := by
    rw [hw] at z2
    have hww := Option.some.inj z2
    rw [hJ.wpoly] at hq1
    by_cases hz : z = rm
    · subst hz
      rw [a9] at y2
      cases y2
      rw [if_pos rfl] at hww
      subst hww
      rw [if_neg (by rw [hch w a1 a3]; exact hkr), a7] at hq1
      rw [if_pos rfl]
      exact (Option.some.inj hq1).symm
    · rw [if_neg hz] at hww
      subst hww
      simp only [hch w zl hz] at hq1
      by_cases hp : s.parent w = some rm
      · rw [if_pos hp] at hq1
        have := (hN.nest.child zl a4 (hJ.hrm ▸ hp)).1
        rw [y2] at this
        rw [if_pos (Option.some.inj this)]
        exact (Option.some.inj hq1).symm
      · rw [if_neg hp, y2] at hq1
        cases hq1
        rw [if_neg]
        rintro rfl
        obtain ⟨q2, _, j2, j3⟩ := hN.nest.pols w zl
        rw [y2] at j2
        cases j2
        rw [← hJ.hrm] at j3
        exact j3.elim (fun hh => hz hh.symm) hp
  subst hq0
  exact goodW_less hg hP.toSub h h' hx.live hw hq1 (fun y hy => hE y q0 y3 (hG z d y q0 hy z1 y2)) d x _ hx hw hq1

end
end Verif.Decomp
