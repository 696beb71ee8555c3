import Verif.Plane.Divide
import Verif.Plane.Where

/-! The splitting of a polygon by `new_segment` in a drawing. -/

namespace Verif.Decomp
open Verif.Plane

section
variable {K : Type} [Field K] [LinearOrder K]

/-- The points that `contains_wire` tests are beside the segments: no other segment is between them. -/
def Near (g : Geom K) (s : St K) : Prop := ∀ w ∈ s.wid.live, w ≠ 0 → ∀ d, s.wseg w = some d → Sees s d (sidePoint g s d)

theorem cut_mid {g : Geom K} {e a b : Id} {ia ib : Ins} {ow lw q q' : Id} {l : List HE} {s s1 s2 : St K}
    (hS : SplitPoly s s1 e a b ia ib ow lw q q' l) (h : Nested s) (hCa : Corner s a ia) (hs : cut g q q' ow lw s1 = .ok s2) :
    ∃ iw uw P C Q O c, s2 = { s1 with parent := P, childs := C, wpoly := Q, outer := O, change := c } ∧
      ((iw = lw ∧ uw = ow) ∨ (iw = ow ∧ uw = lw)) ∧ Q uw = some q ∧ Q iw = some q' ∧
      (∀ x, O x = if x = q' then iw else s.outer x) ∧
      (∀ c ∈ s.wid.live, c ≠ ow → Q c = s.wpoly c ∧ P c = if s.parent c = some ow then some uw else s.parent c) ∧
      ((s.outer q = ow ∧ iw = lw ∧ uw = ow ∧ P uw = s.parent ow ∧ P iw = s.parent ow) ∨
        (s.outer q ≠ ow ∧ s.parent ow = some (s.outer q) ∧ P uw = some (s.outer q) ∧ P iw = some uw ∧
          ∃ inR, containsWire g s1 ow lw = .ok inR ∧ iw = if inR = true then lw else ow)) := by
  obtain ⟨o1, o2, l1, l2, q1, q2, hwl, hql⟩ := hS.lives h hCa
  have hqq : q ≠ q' := fun hh => q2 (hh ▸ q1)
  have hu1 : UpTree s1 := (newWireObj_up h.tree).frame hS.wid (by rw [hS.parent, hS.hlw]; rfl) (by rw [hS.childs, hS.hlw]; rfl)
  have hoq : s1.outer q = s.outer q := by rw [hS.outer]; simp only [upd, Function.update_of_ne hqq]
  have hsp : ∀ w, w ≠ lw → s1.parent w = s.parent w := fun w hw => by rw [hS.parent]; simp [upd, Function.update_of_ne hw]
  have hsw : ∀ w, w ≠ lw → s1.wpoly w = s.wpoly w := fun w hw => by rw [hS.wpoly]; simp [upd, Function.update_of_ne hw]
  have hnl : ∀ c ∈ s.wid.live, c ≠ lw := fun c hc hh => l1 (hh ▸ hc)
  unfold cut at hs
  rw [hoq] at hs
  split at hs
  · next ho =>
    obtain ⟨C, rfl⟩ := cutOuter_eq hs
    refine ⟨lw, ow, _, _, _, _, _, rfl, Or.inl ⟨rfl, rfl⟩, (hsw ow hS.ne).trans hS.poly, by rw [hS.wpoly]; simp [upd], fun x => ?_,
      fun c hc hco => ⟨hsw c (hnl c hc), ?_⟩, Or.inl ⟨ho, rfl, rfl, ?_, ?_⟩⟩
    · rw [hS.outer]
      simp only [upd, Function.update_apply]
    · simp only [upd, Function.update_of_ne (hnl c hc)]
      rw [hsp c (hnl c hc)]
      split
      · assumption
      · rfl
    · simp only [upd, Function.update_of_ne hS.ne]
      exact hsp ow hS.ne
    · simp only [upd, Function.update_self]
      exact hsp ow hS.ne
  · next ho =>
    obtain ⟨iw, uw, C, inR, hiu, hcw, hpo, rfl⟩ := cutHole_eq hs
    have hpo' : s.parent ow = some (s.outer q) := by rw [← hsp ow hS.ne, hpo, hoq]
    have hnc : ow ∉ s1.childs ow := by
      intro hh
      have := (hu1.child ((hwl _).2 (Or.inl o1)) hh).2
      rw [hpo, hoq] at this
      exact ho (Option.some.inj this)
    have hio : iw ≠ uw := by
      rcases hiu with ⟨_, rfl, rfl⟩ | ⟨_, rfl, rfl⟩
      · exact hS.ne.symm
      · exact hS.ne
    have hiu' : (iw = lw ∧ uw = ow) ∨ (iw = ow ∧ uw = lw) := by
      rcases hiu with ⟨_, k⟩ | ⟨_, k⟩
      · exact Or.inl k
      · exact Or.inr k
    refine ⟨iw, uw, _, _, _, _, _, rfl, hiu', by simp [upd, Function.update_of_ne hio.symm], by simp [upd], fun x => ?_,
      fun c hc hco => ?_, Or.inr ⟨ho, hpo', ?_, by simp [upd], inR, hcw, ?_⟩⟩
    · rw [hS.outer]
      by_cases hx : x = q'
      · simp [upd, hx]
      · simp [upd, hx]
    · have hwi : c ≠ iw := by rcases hiu' with ⟨rfl, rfl⟩ | ⟨rfl, rfl⟩ <;> [exact hnl c hc; exact hco]
      have hwu : c ≠ uw := by rcases hiu' with ⟨rfl, rfl⟩ | ⟨rfl, rfl⟩ <;> [exact hco; exact hnl c hc]
      simp only [upd, Function.update_of_ne hwi, Function.update_of_ne hwu]
      refine ⟨hsw c (hnl c hc), ?_⟩
      simp only [hu1.childs_iff ((hwl _).2 (Or.inl o1)) ((hwl _).2 (Or.inl hc)) hco, hsp c (hnl c hc)]
    · rw [if_neg hnc, hpo, hoq]
      simp [upd, Function.update_of_ne hio.symm]
    · rcases hiu with ⟨rfl, rfl, _⟩ | ⟨rfl, rfl, _⟩ <;> simp

variable [IsStrictOrderedRing K]

/-- The test of a wire by `contains_wire` decides for all points beside it. -/
theorem containsWire_near {g : Geom K} (hg : ArgOk g) {t : St K} (ht : Flat g t) (hN : Near g t) {w c : Id} (hw : w ∈ t.wid.live)
    (h0 : w ≠ 0) (hc : c ∈ t.wid.live) (hc0 : c ≠ 0) :
    ∃ b, containsWire g t w c = .ok b ∧ ∀ d x, Sees t d x → t.wire d = some c → (b = true ↔ cnt t x w = 1) := by
  obtain ⟨d, hd, hdl, hdw⟩ := ht.wires.seg c hc hc0
  refine ⟨decide (cnt t (sidePoint g t d) w = 1), ?_, fun d' x hx hw' => ?_⟩
  · unfold containsWire
    rw [if_neg (ht.wires.par w hw h0), if_neg (ht.wires.par c hc hc0), hd]
    exact contains_cnt ht.links ht.wires hw h0 _
  · rw [decide_eq_true_iff, wire_same hg ht hx.live hw' hdw hx (hN c hc hc0 d hd)]

/-- The splitting of a polygon by a segment in a drawing. -/
theorem splitPoly_divide {g : Geom K} (hg : ArgOk g) {a b e : Id} {ia ib : Ins} {s t : St K}
    (hs : splitPoly g a b ia ib s = .ok (e, t)) (h : Drawn g s) (hG : Good s) (ha : a ∈ s.pid.live) (hb : b ∈ s.pid.live)
    (hCa : Corner s a ia) (hCb : Corner s b ib) (ht : Flat g t) (hNe : Near g t) :
    ∃ ow lw q q' iw uw, Divide s t e ow lw q q' iw uw ∧ t.xy = s.xy ∧ t.pid = s.pid ∧
      ∀ p ∈ s.pid.live, ∀ r, t.ppoly p = some r → (r = q' ∧ s.ppoly p = some q ∧ cnt t (t.xy p) iw = 1) ∨
        (s.ppoly p = some r ∧ (r = q → cnt t (t.xy p) iw ≠ 1)) := by
  have hn := h.nested
  obtain ⟨ow, lw, q, q', l, s1, s2, s3, hS, hF1, hle, k1, k2, k3⟩ :=
    splitPoly_start2 hs hn.inv.links ha hb hn.free (fun _ => hn.inv.qids) hCa hCb
  obtain ⟨hW1, hp⟩ := splitPoly_wires hn.wires hn.inv.wids hS hCa hCb
  obtain ⟨o1, o2, l1, l2, q1, q2, hwl, hql⟩ := hS.lives hn hCa
  obtain ⟨hu2, -, -⟩ := cut_nested hS hn hW1 hCa k1
  have hN := hn.nest
  have hqq : q ≠ q' := fun hh => q2 (hh ▸ q1)
  have hself : ∀ w ∈ s.wid.live, s.parent w ≠ some w := fun w hw hh => hN.swap hw hh hh
  have hol := (hN.outs q q1).1
  have e0 : s1.wire (e, false) = some ow := by
    obtain ⟨d, d1, d2, d3⟩ := hW1.seg ow ((hwl _).2 (Or.inl o1)) o2
    rw [hS.wseg] at d1
    simp only [upd, Function.update_self, Option.some.injEq] at d1
    subst d1
    exact d3
  have hel : e ∈ s1.sid.live := (hS.add.live e).2 (Or.inr rfl)
  have hsg : s1.wseg lw = some (e, true) := by
    rw [hS.wseg]
    simp [upd, hS.ne.symm]
  have gaw : ∀ u, u = ow ∨ u = lw → ∃ d : HE, d.1 ∈ s.sid.live ∧ s1.wire d = some u := by
    rintro u (rfl | rfl)
    · exact ⟨ia.2.1, (hn.wires.next_wire hCa.live hCa.nxt).1, (hW1.next_wire (x := (e, false)) hel hS.splice.e0).2.trans e0⟩
    · exact ⟨ib.2.1, (hn.wires.next_wire hCb.live hCb.nxt).1, (hW1.next_wire (x := (e, true)) hel hS.splice.e1).2.trans hS.wir1⟩
  obtain ⟨iw, uw, P, C, Q, O, ch, rfl, hiu, hQu, hQi, hO, hbase, hkind⟩ := cut_mid hS hn hCa k1
  have hOq : O q = s.outer q := by rw [hO, if_neg hqq]
  have hOq' : O q' = iw := by rw [hO, if_pos rfl]
  have hiw : iw ∈ s1.wid.live ∧ iw ≠ 0 := by
    rcases hiu with ⟨rfl, _⟩ | ⟨rfl, _⟩
    · exact ⟨(hwl _).2 (Or.inr rfl), l2⟩
    · exact ⟨(hwl _).2 (Or.inl o1), o2⟩
  have huw : uw ∈ s1.wid.live ∧ uw ≠ 0 := by
    rcases hiu with ⟨_, rfl⟩ | ⟨_, rfl⟩
    · exact ⟨(hwl _).2 (Or.inl o1), o2⟩
    · exact ⟨(hwl _).2 (Or.inr rfl), l2⟩
  have hui : uw ≠ iw := by
    rcases hiu with ⟨rfl, rfl⟩ | ⟨rfl, rfl⟩
    · exact hS.ne
    · exact hS.ne.symm
  dsimp only at k2
  obtain ⟨pp, fp, rfl, pex, ptest⟩ := splitPoints_test k2 fun p hp => (hF1.pseg hp).1
  dsimp only at k3 pex ptest
  have hch : ∀ c ∈ C (O q), c ∈ s1.wid.live ∧ P c = some (O q) := fun c hc => hu2.child (by
    rw [hOq]; exact (hwl _).2 (Or.inl hol)) hc
  obtain ⟨P', C', Q', rfl, hnone, hex, htest⟩ := splitHoles_test k3 fun c hc hh => by
    have := (hch c hc).2
    rw [show P c = none from hh] at this
    cases this
  dsimp only at hnone hex htest
  rw [hOq'] at pex ptest hex htest
  have tc : ∀ c, containsWire g ({ s1 with
      parent := P'
      childs := C'
      wpoly := Q'
      outer := O
      ppoly := pp
      fpts := fp
      change := ch } : St K) iw c = containsWire g ({ s1 with
      parent := P
      childs := C
      wpoly := Q
      outer := O
      ppoly := pp
      fpts := fp
      change := ch } : St K) iw c := fun c => containsWire_congr (s := { s1 with
      parent := P
      childs := C
      wpoly := Q
      outer := O
      ppoly := pp
      fpts := fp
      change := ch }) (s' := { s1 with
      parent := P'
      childs := C'
      wpoly := Q'
      outer := O
      ppoly := pp
      fpts := fp
      change := ch }) rfl rfl rfl rfl rfl rfl (hnone _) (hnone _)
  have tp : ∀ x, containsPoint ({ s1 with
      parent := P'
      childs := C'
      wpoly := Q'
      outer := O
      ppoly := pp
      fpts := fp
      change := ch } : St K) iw x = containsPoint ({ s1 with
      parent := P
      childs := C
      wpoly := Q
      outer := O
      change := ch } : St K) iw x := fun x => containsPoint_congr (s := { s1 with
      parent := P
      childs := C
      wpoly := Q
      outer := O
      change := ch }) (s' := { s1 with
      parent := P'
      childs := C'
      wpoly := Q'
      outer := O
      ppoly := pp
      fpts := fp
      change := ch }) rfl rfl rfl rfl rfl (hnone _) x
  simp only [← tc] at hex htest
  simp only [← tp] at pex ptest
  generalize htd : ({ s1 with
      parent := P'
      childs := C'
      wpoly := Q'
      outer := O
      ppoly := pp
      fpts := fp
      change := ch } : St K) = t at *
  have t1 : t.wire = s1.wire := by rw [← htd]
  have t2 : t.sid = s1.sid := by rw [← htd]
  have t3 : t.vtx = s1.vtx := by rw [← htd]
  have t4 : t.xy = s1.xy := by rw [← htd]
  have t5 : t.vec = s1.vec := by rw [← htd]
  have t6 : t.wid = s1.wid := by rw [← htd]
  have t7 : t.qid = s1.qid := by rw [← htd]
  have t8 : t.outer = O := by rw [← htd]
  have t9 : t.parent = P' := by rw [← htd]
  have t10 : t.wpoly = Q' := by rw [← htd]
  have t11 : t.ppoly = pp := by rw [← htd]
  have t12 : t.pid = s1.pid := by rw [← htd]
  have t13 : t.wseg = s1.wseg := by rw [← htd]
  have tcnt : cnt t = cnt s1 := by rw [← htd]; rfl
  clear tc tp hs k1 k2 k3 htd
  have hcut : Cut s t e ow lw q := by
    refine ⟨?_, hS.ne, t1 ▸ e0, t1 ▸ hS.wir1, fun d hd => ?_, ?_, hS.poly, o1, o2⟩
    · have hA := hS.add.plus
      refine ⟨⟨fun j hj => t2 ▸ hA.live j hj, fun d hd => ?_⟩, hA.fresh, fun j => t2 ▸ hA.iff j⟩
      rw [t3, t4]
      exact hA.pos d hd
    · rw [t1]; exact hS.fold hn hd
    · rw [t1]; exact gaw
  have hxe : Sees t (e, true) (sidePoint g t (e, true)) :=
    hNe lw (by rw [t6]; exact (hwl _).2 (Or.inr rfl)) l2 (e, true) (by rw [t13]; exact hsg)
  have hsides : ∀ u d x, u = ow ∨ u = lw → Sees t d x → t.wire d = some u → (cnt t x iw = 1 ↔ u = iw) := by
    intro u d x hu hx hw
    rcases hkind with ⟨ho, rfl, _⟩ | ⟨ho, hpo, _, _, inR, hin, hi⟩
    · exact hcut.outer hg hG ht ho hu hx hw
    · refine hcut.hole hg h hG ht hpo hxe ?_ hu hx hw
      unfold containsWire at hin
      rw [if_neg hp, if_neg (hW1.par lw ((hwl _).2 (Or.inr rfl)) l2), hsg] at hin
      have hpt : sidePoint g s1 (e, true) = sidePoint g t (e, true) := by unfold sidePoint; rw [t3, t4, t5]
      have hin : containsPoint s1 ow (sidePoint g s1 (e, true)) = .ok inR := hin
      rw [hpt, contains_cnt hS.links hW1 ((hwl _).2 (Or.inl o1)) o2, ← tcnt] at hin
      rw [hi, ← Except.ok.inj hin]
      simp only [decide_eq_true_eq]
  have hnear : ∀ c ∈ s1.wid.live, c ≠ 0 → ∃ b, containsWire g t iw c = .ok b ∧
      ∀ d x, Sees t d x → t.wire d = some c → (b = true ↔ cnt t x iw = 1) := fun c hc hc0 =>
    containsWire_near hg ht hNe (by rw [t6]; exact hiw.1) hiw.2 (by rw [t6]; exact hc) hc0
  have hou : s.outer q ≠ ow → s.outer q ≠ uw := by
    intro ho hh
    rcases hiu with ⟨_, k⟩ | ⟨_, k⟩
    · exact ho (hh.trans k)
    · exact l1 (by rw [← k, ← hh]; exact hol)
  have hnu : ¬ (uw ∈ C (O q) ∧ containsWire g t iw uw = .ok true) := by
    rintro ⟨m1, m2⟩
    rcases hkind with ⟨ho, rfl, rfl, k1, k2⟩ | ⟨ho, _, _, _, _⟩
    · have := (hch _ m1).2
      rw [k1, hOq, ho] at this
      exact hself _ o1 this
    · obtain ⟨b, hb, hb'⟩ := hnear uw huw.1 huw.2
      rw [m2] at hb
      cases hb
      obtain ⟨d, d1, d2⟩ := hcut.old uw (by rcases hiu with ⟨_, k⟩ | ⟨_, k⟩ <;> simp [k])
      obtain ⟨x, hx⟩ := sees_ex ht.links ht.planar (d := d) (hcut.plus.live _ d1)
      exact hui ((hsides uw d x (by rcases hiu with ⟨_, k⟩ | ⟨_, k⟩ <;> simp [k]) hx d2).1 ((hb' d x hx d2).1 rfl))
  have hni : iw ∉ C (O q) := by
    intro m1
    have := (hch _ m1).2
    rcases hkind with ⟨ho, rfl, rfl, k1, k2⟩ | ⟨ho, _, _, k1, _⟩
    · rw [k2, hOq, ho] at this
      exact hself _ o1 this
    · rw [k1, hOq] at this
      exact hou ho (Option.some.inj this).symm
  have hPu : P' uw = P uw ∧ Q' uw = Q uw := by
    rcases htest uw with ⟨m1, m2, _⟩ | ⟨_, m⟩
    · exact absurd ⟨m1, m2⟩ hnu
    · exact m
  have hPi : P' iw = P iw ∧ Q' iw = Q iw := by
    rcases htest iw with ⟨m1, m2, _⟩ | ⟨_, m⟩
    · exact absurd m1 hni
    · exact m
  have hpar : ∀ c ∈ s.wid.live, c ≠ ow → (P c = some (O q) ↔ s.parent c = some (s.outer q)) := by
    intro c hc hco
    rw [(hbase c hc hco).2, hOq]
    by_cases k : s.parent c = some ow
    · rw [if_pos k, k]
      rcases hkind with ⟨ho, rfl, rfl, k1, k2⟩ | ⟨ho, _⟩
      · exact Iff.rfl
      · exact iff_of_false (fun hh => hou ho (Option.some.inj hh).symm) (fun hh => ho (Option.some.inj hh).symm)
    · rw [if_neg k]
  have hD : Divide s t e ow lw q q' iw uw := by
    refine ⟨hcut, l1, l2, t6 ▸ hwl, t7 ▸ hql, q1, q2, t8 ▸ hO, hiu, hsides, ?_, ?_, ?_, fun c hc hco => ?_⟩
    · rw [t10, hPu.2]; exact hQu
    · rw [t10, hPi.2]; exact hQi
    · rw [t9, hPu.1, hPi.1]
      rcases hkind with ⟨ho, _, k, k1, k2⟩ | ⟨ho, k, k1, k2, _⟩
      · exact Or.inl ⟨ho, k, k1, k2⟩
      · exact Or.inr ⟨ho, k, k1, k2⟩
    · rw [t9, t10]
      have h0 : s.parent c = some (s.outer q) → c ≠ 0 := by
        rintro hh rfl
        rw [hN.p0] at hh
        cases hh
      rcases htest c with ⟨m1, m2, m3, m4⟩ | ⟨m1, m2, m3⟩
      · have hp' := (hpar c hc hco).1 (hch c m1).2
        refine Or.inl ⟨hp', m3, m4, fun d x hx hw => ?_⟩
        obtain ⟨b, hb, hb'⟩ := hnear c ((hwl _).2 (Or.inl hc)) (h0 hp')
        rw [m2] at hb
        cases hb
        exact (hb' d x hx hw).1 rfl
      · refine Or.inr ⟨m2.trans (hbase c hc hco).2, m3.trans (hbase c hc hco).1, fun hp' d x hx hw hcn => ?_⟩
        obtain ⟨b, hb, hb'⟩ := hnear c ((hwl _).2 (Or.inl hc)) (h0 hp')
        have hb1 := (hb' d x hx hw).2 hcn
        subst hb1
        have hco' : c ≠ O q := by
          rintro rfl
          rw [hOq] at hc hp'
          exact hself _ hc hp'
        exact m1 ⟨(hu2.childs_iff (by rw [hOq]; exact (hwl _).2 (Or.inl hol)) ((hwl _).2 (Or.inl hc)) hco').2 ((hpar c hc hco).2 hp'), hb⟩
  have hcp : ∀ x, containsPoint t iw x = .ok true ↔ cnt t x iw = 1 := by
    intro x
    rw [contains_cnt ht.links ht.wires (by rw [t6]; exact hiw.1) hiw.2, Except.ok.injEq, decide_eq_true_iff]
  have txy : s1.xy = s.xy := hS.add.xy
  have hpid : s1.pid = s.pid := hS.add.pid
  refine ⟨ow, lw, q, q', iw, uw, hD, t4.trans txy, t12.trans hpid, fun p hp r hr => ?_⟩
  rw [t11] at hr
  rw [t4, ← hcp]
  rcases ptest p with ⟨m1, m2, m3⟩ | ⟨m1, m2⟩
  · rw [m3] at hr
    exact Or.inl ⟨(Option.some.inj hr).symm, hle p q (hF1.mem _ _ m1).2, m2⟩
  · rw [m2] at hr
    refine Or.inr ⟨hle p r hr, ?_⟩
    rintro rfl hh
    exact m1 ⟨(hF1.full trivial p (hpid ▸ hp) r hr).2, (hcp _).2 hh⟩

end
end Verif.Decomp
