import Verif.Plane.Tests

/-! A polygon divided by a new segment. -/

namespace Verif.Decomp
open Verif.Plane

section
variable {K : Type} [Field K] [LinearOrder K] [IsStrictOrderedRing K]

/-- The part `q'` of the polygon `q` in `t` has the outer wire `iw`. The other part of the cut wire is `uw`. Wires on the boundary of
`q` go to the part that contains the points to the left of their sides. -/
structure Divide (s t : St K) (e ow lw q q' iw uw : Id) : Prop where
  cut : Cut s t e ow lw q
  lwn : lw ∉ s.wid.live
  lw0 : lw ≠ 0
  wl : ∀ w, w ∈ t.wid.live ↔ w ∈ s.wid.live ∨ w = lw
  ql : ∀ x, x ∈ t.qid.live ↔ x ∈ s.qid.live ∨ x = q'
  q1 : q ∈ s.qid.live
  q2 : q' ∉ s.qid.live
  outer : ∀ x, t.outer x = if x = q' then iw else s.outer x
  iu : (iw = lw ∧ uw = ow) ∨ (iw = ow ∧ uw = lw)
  sides : ∀ u d x, u = ow ∨ u = lw → Sees t d x → t.wire d = some u → (cnt t x iw = 1 ↔ u = iw)
  wu : t.wpoly uw = some q
  wi : t.wpoly iw = some q'
  kind : (s.outer q = ow ∧ uw = ow ∧ t.parent uw = s.parent ow ∧ t.parent iw = s.parent ow) ∨
    (s.outer q ≠ ow ∧ s.parent ow = some (s.outer q) ∧ t.parent uw = some (s.outer q) ∧ t.parent iw = some uw)
  rest : ∀ c ∈ s.wid.live, c ≠ ow →
    (s.parent c = some (s.outer q) ∧ t.parent c = some iw ∧ t.wpoly c = some q' ∧ ∀ d x, Sees t d x → t.wire d = some c → cnt t x iw = 1) ∨
    (t.parent c = (if s.parent c = some ow then some uw else s.parent c) ∧ t.wpoly c = s.wpoly c ∧
      (s.parent c = some (s.outer q) → ∀ d x, Sees t d x → t.wire d = some c → cnt t x iw ≠ 1))

variable {g : Geom K} {s t : St K} {e ow lw q q' iw uw : Id}

theorem Divide.names (h : Divide s t e ow lw q q' iw uw) :
    uw ≠ iw ∧ uw ≠ 0 ∧ iw ≠ 0 ∧ (uw = ow ∨ uw = lw) ∧ (iw = ow ∨ iw = lw) ∧ ∀ c, c ≠ uw → c ≠ iw → c ≠ ow ∧ c ≠ lw := by
  have hne := h.cut.ne
  have h1 := h.cut.ow0
  have h2 := h.lw0
  rcases h.iu with ⟨rfl, rfl⟩ | ⟨rfl, rfl⟩
  · exact ⟨hne, h1, h2, Or.inl rfl, Or.inr rfl, fun c a b => ⟨a, b⟩⟩
  · exact ⟨hne.symm, h2, h1, Or.inr rfl, Or.inl rfl, fun c a b => ⟨b, a⟩⟩

/-- The wire of `s` that a wire of `t` has as parent. -/
def Divide.rep (s : St K) (ow q iw uw c : Id) : Id := if c = uw then ow else if c = iw then s.outer q else c

theorem Divide.merge (h : Divide s t e ow lw q q' iw uw) (hN : NestSt s) :
    Merge (· ∈ t.wid.live) t.parent s.parent uw iw ow lw (Divide.rep s ow q iw uw) := by
  obtain ⟨n1, n2, n3, n4, n5, n6⟩ := h.names
  have ru : Divide.rep s ow q iw uw uw = ow := if_pos rfl
  have ri : Divide.rep s ow q iw uw iw = s.outer q := by unfold Divide.rep; rw [if_neg n1.symm, if_pos rfl]
  refine ⟨n1, n2, n3, ?_, ru, fun c c1 c2 => ?_, ?_, ?_, fun c hc c1 c2 => ?_⟩
  · rcases h.iu with ⟨rfl, rfl⟩ | ⟨rfl, rfl⟩
    · exact Or.inl ⟨rfl, rfl⟩
    · exact Or.inr ⟨rfl, rfl⟩
  · unfold Divide.rep
    rw [if_neg c1, if_neg c2]
  · rcases h.kind with ⟨k1, k2, k3, k4⟩ | ⟨k1, k2, k3, k4⟩
    · exact Or.inl ⟨k3.trans k4.symm, ri.trans k1⟩
    · exact Or.inr ⟨k4, by rw [ri]; exact k3⟩
  · rcases h.kind with ⟨k1, k2, k3, k4⟩ | ⟨k1, k2, k3, k4⟩
    · exact k3.symm
    · exact k2.trans k3.symm
  · obtain ⟨m1, m2⟩ := n6 c c1 c2
    have hcs := ((h.wl c).1 hc).resolve_right m2
    rcases h.rest c hcs m1 with ⟨r1, r2, _⟩ | ⟨r1, _⟩
    · rw [r1, r2, Option.map_some, ri]
    · rw [r1]
      by_cases hp : s.parent c = some ow
      · rw [if_pos hp, hp, Option.map_some, ru]
      · rw [if_neg hp]
        cases hpc : s.parent c with
        | none => rfl
        | some p =>
          have hpl := hN.par_ex hcs hpc
          have p1 : p ≠ ow := fun hh => hp (hh ▸ hpc)
          have p2 : p ≠ lw := fun hh => h.lwn (hh ▸ hpl)
          have p3 : p ≠ uw := by rcases n4 with k | k <;> rw [k] <;> assumption
          have p4 : p ≠ iw := by rcases n5 with k | k <;> rw [k] <;> assumption
          rw [Option.map_some]
          unfold Divide.rep
          rw [if_neg p3, if_neg p4]

/-- No two wires become the parents of each other. -/
theorem Divide.noSwap (h : Divide s t e ow lw q q' iw uw) (hN : NestSt s) : NoSwap t := by
  obtain ⟨n1, n2, n3, n4, n5, n6⟩ := h.names
  have hM := h.merge hN
  have ru : Divide.rep s ow q iw uw uw = ow := if_pos rfl
  have ri : Divide.rep s ow q iw uw iw = s.outer q := by unfold Divide.rep; rw [if_neg n1.symm, if_pos rfl]
  have back : ∀ c ∈ t.wid.live, c ≠ uw → c ≠ iw → c ∈ s.wid.live := fun c hc c1 c2 => ((h.wl c).1 hc).resolve_right (n6 c c1 c2).2
  have both : ∀ x ∈ t.wid.live, x ≠ uw → x ≠ iw → ∀ y ∈ t.wid.live, y ≠ uw → y ≠ iw → t.parent x = some y → t.parent y ≠ some x := by
    intro x hx x1 x2 y hy y1 y2 hxy hyx
    have e1 := hM.pc x hx x1 x2
    have e2 := hM.pc y hy y1 y2
    rw [hxy, Option.map_some, hM.rep_o y y1 y2] at e1
    rw [hyx, Option.map_some, hM.rep_o x x1 x2] at e2
    exact hN.swap (back x hx x1 x2) e1 e2
  have one : t.parent uw ≠ some iw := by
    intro hh
    rcases h.kind with ⟨k1, k2, k3, k4⟩ | ⟨k1, k2, k3, k4⟩
    · rw [k3] at hh
      have := hN.par_ex h.cut.owl hh
      rcases h.iu with ⟨rfl, rfl⟩ | ⟨rfl, rfl⟩
      · exact h.lwn this
      · exact h.cut.ne k2.symm
    · rw [k3] at hh
      have hh := Option.some.inj hh
      have hl := (hN.outs q h.q1).1
      rw [hh] at hl
      rcases n5 with k | k
      · exact k1 (hh.trans k)
      · exact h.lwn (k ▸ hl)
  have two : ∀ y ∈ t.wid.live, y ≠ uw → y ≠ iw → t.parent uw = some y → t.parent y ≠ some uw := by
    intro y hy y1 y2 h1 h2
    have e1 : s.parent ow = some y := hM.pk.trans h1
    have e2 := hM.pc y hy y1 y2
    rw [h2, Option.map_some, ru] at e2
    exact hN.swap h.cut.owl e1 e2
  have three : ∀ y ∈ t.wid.live, y ≠ uw → y ≠ iw → t.parent iw = some y → t.parent y ≠ some iw := by
    intro y hy y1 y2 h1 h2
    have e2 := hM.pc y hy y1 y2
    rw [h2, Option.map_some, ri] at e2
    rcases h.kind with ⟨k1, k2, k3, k4⟩ | ⟨k1, k2, k3, k4⟩
    · rw [k4] at h1
      rw [k1] at e2
      exact hN.swap h.cut.owl h1 e2
    · rw [k4] at h1
      exact y1 (Option.some.inj h1).symm
  intro x hx y hy hne hxy hyx
  by_cases x1 : x = uw
  · subst x1
    by_cases y2 : y = iw
    · subst y2
      exact one hxy
    · exact two y hy hne.symm y2 hxy hyx
  · by_cases x2 : x = iw
    · subst x2
      by_cases y1 : y = uw
      · subst y1
        exact one hyx
      · exact three y hy y1 hne.symm hxy hyx
    · by_cases y1 : y = uw
      · subst y1
        exact two x hx x1 x2 hyx hxy
      · by_cases y2 : y = iw
        · subst y2
          exact three x hx x1 x2 hyx hxy
        · exact both x hx x1 x2 y hy y1 y2 hxy hyx

/-- The parts of a polygon are in it. -/
theorem Divide.exact (h : Divide s t e ow lw q q' iw uw) (hN : NestSt s) (hN' : NestSt t) {x : K × K} {p : Id} (hp : p ∈ t.qid.live)
    (he : Exact t x p) : Exact s x (if p = q' then q else p) := by
  obtain ⟨n1, n2, n3, n4, n5, n6⟩ := h.names
  have hM := h.merge hN
  have hl : ∀ w, w = ow ∨ w = lw → w ∈ t.wid.live := by
    rintro w (rfl | rfl)
    · exact (h.wl _).2 (Or.inl h.cut.owl)
    · exact (h.wl _).2 (Or.inr rfl)
  refine hM.exact hN' (hl uw n4) (hl iw n5) (fun w hw => ⟨(h.wl w).2 (Or.inl hw), fun hh => h.lwn (hh ▸ hw)⟩) (fun w hw => ?_) hp ?_ he
  · rw [h.cut.count, if_neg hw]
    by_cases k : w = ow
    · rw [if_pos k, if_pos k]
      rcases h.iu with ⟨rfl, rfl⟩ | ⟨rfl, rfl⟩
      · rfl
      · exact add_comm _ _
    · rw [if_neg k, if_neg k]
  · rw [h.outer]
    by_cases k : p = q'
    · rw [if_pos k, if_pos k]
      unfold Divide.rep
      rw [if_neg n1.symm, if_pos rfl]
    · rw [if_neg k, if_neg k]
      have hps := ((h.ql p).1 hp).resolve_right k
      have hol := (hN.outs p hps).1
      unfold Divide.rep
      by_cases k1 : s.outer p = uw
      · rw [if_pos k1, k1]
        rcases n4 with k2 | k2
        · exact k2
        · exact absurd (k2 ▸ k1 ▸ hol) h.lwn
      · rw [if_neg k1]
        by_cases k2 : s.outer p = iw
        · exfalso
          rcases h.iu with ⟨i1, i2⟩ | ⟨i1, i2⟩
          · exact h.lwn (i1 ▸ k2 ▸ hol)
          · rcases h.kind with ⟨j1, j2, _⟩ | ⟨j1, _⟩
            · exact h.cut.ne (j2.symm.trans i2)
            · exact j1 (hN.around h.cut.poly ⟨p, hps, k2.trans i1⟩)
        · rw [if_neg k2]

/-- The polygons of the wires, before and after. -/
theorem Divide.label (h : Divide s t e ow lw q q' iw uw) (hN : NestSt s) {w p : Id} (hw : w ∈ t.wid.live) (hp : t.wpoly w = some p) :
    s.wpoly (if w = lw then ow else w) = some (if p = q' then q else p) := by
  obtain ⟨n1, n2, n3, n4, n5, n6⟩ := h.names
  have hqq : q ≠ q' := fun hh => h.q2 (hh ▸ h.q1)
  have hlo : ∀ w, w = ow ∨ w = lw → (if w = lw then ow else w) = ow := by
    rintro w (rfl | rfl)
    · rw [if_neg h.cut.ne]
    · rw [if_pos rfl]
  by_cases w1 : w = uw
  · subst w1
    rw [h.wu] at hp
    cases hp
    rw [hlo w n4, if_neg hqq]
    exact h.cut.poly
  · by_cases w2 : w = iw
    · subst w2
      rw [h.wi] at hp
      cases hp
      rw [hlo w n5, if_pos rfl]
      exact h.cut.poly
    · obtain ⟨m1, m2⟩ := n6 w w1 w2
      rw [if_neg m2]
      have hws := ((h.wl w).1 hw).resolve_right m2
      rcases h.rest w hws m1 with ⟨r1, _, r2, _⟩ | ⟨_, r2, _⟩
      · rw [r2] at hp
        cases hp
        rw [if_pos rfl]
        exact (hN.child hws h.q1 r1).1
      · rw [r2] at hp
        obtain ⟨p', hpl, hp', _⟩ := hN.pols w hws
        rw [hp] at hp'
        cases hp'
        rw [if_neg fun (hh : p = q') => h.q2 (hh ▸ hpl)]
        exact hp

/-- Points beside the outer wire of the polygon are not in the part around which a hole was closed. -/
theorem Divide.frame (hg : ArgOk g) (h : Divide s t e ow lw q q' iw uw) (hs : Drawn g s) (hG : Good s) (ht : Flat g t)
    (ho : s.outer q ≠ ow) {d : HE} {x : K × K} (hx : Sees t d x) (hw : t.wire d = some (s.outer q)) : cnt t x iw ≠ 1 := by
  obtain ⟨n1, n2, n3, n4, n5, n6⟩ := h.names
  have hN := hs.nested.nest
  have hol := (hN.outs q h.q1).1
  have hlw : s.outer q ≠ lw := fun hh => h.lwn (hh ▸ hol)
  have hiw : s.outer q ≠ iw := by rcases n5 with k | k <;> rw [k] <;> assumption
  have h0 : s.outer q ≠ 0 := by
    obtain ⟨w, w1, _, w2⟩ := ht.wires.lab d hx.live
    rw [hw] at w1
    cases w1
    exact w2
  have hin : ∀ {y}, Exact s y q → cnt t y (s.outer q) = 1 := by
    intro y hy
    have := ((hy _ hol).2 .refl).resolve_left h0
    rwa [h.cut.count, if_neg ho, if_neg hlw] at this
  have hown : ∀ {d y}, Sees t d y → t.wire d = some (s.outer q) → cnt t y (s.outer q) = 1 := by
    intro d y hy hd
    have hde : d.1 ≠ e := by
      intro hh
      rcases eq_or_flip (h := d) (k := (e, true)) hh with rfl | rfl
      · rw [h.cut.w1] at hd
        exact hlw (Option.some.inj hd).symm
      · rw [show flip ((e, true) : HE) = (e, false) from rfl, h.cut.w0] at hd
        exact ho (Option.some.inj hd).symm
    have hdl := ((h.cut.plus.iff _).1 hy.live).resolve_right hde
    obtain ⟨z, z1, z2⟩ := h.cut.fold d hdl
    rw [hd] at z1
    cases z1
    rw [if_neg hlw] at z2
    exact hin (hG _ d y q (h.cut.plus.toSub.sees hdl hy) z2 (hN.outs q h.q1).2)
  intro hbad
  have := ray_ind ht.links ht.planar (P := fun z => cnt t z iw = 0 ∧ cnt t z (s.outer q) = 0) (fun z hz => by
      rw [cnt_beyond hz, cnt_beyond hz]; exact ⟨rfl, rfl⟩)
    (fun z y hc hy => by rw [cnt_path ht.links ht.wires hc]; exact hy)
    (fun d' z y hz hy hP => by
      obtain ⟨v, hv, _⟩ := ht.wires.lab (flip d') hy.live
      obtain ⟨v', hv', _⟩ := ht.wires.lab d' hz.live
      have m1 : v ≠ s.outer q := by
        rintro rfl
        rw [hown hy hv] at hP
        exact absurd hP.2 (by decide)
      have m2 : v ≠ iw := by
        rintro rfl
        rw [(h.sides v _ _ n5 hy hv).2 rfl] at hP
        exact absurd hP.1 (by decide)
      have hc := sees_cross ht.links ht.wires ht.planar hz hy
      rw [hv, hv'] at hc
      have m3 : v' ≠ s.outer q := by
        rintro rfl
        have c := hc iw
        rw [wire_same hg ht hz.live hv' hw hz hx, hbad, hP.1] at c
        simp [m2, hiw] at c
      have m4 : v' ≠ iw := by
        rintro rfl
        have c := hc (s.outer q)
        rw [hin (h.cut.side hg hG ht n5 hz hv'), hP.2] at c
        simp [m1, hiw.symm] at c
      rw [hc iw, hc (s.outer q)]
      simp [m1, m2, m3, m4, hP.1, hP.2]) x hx.off
  rw [hbad] at this
  exact absurd this.1 (by decide)

/-- Points to the left of a side are in the part to which its wire belongs. -/
theorem Divide.beside (hg : ArgOk g) (h : Divide s t e ow lw q q' iw uw) (hs : Drawn g s) (hG : Good s) (ht : Flat g t) {d : HE} {x : K × K}
    (hx : Sees t d x) {w p : Id} (hw : t.wire d = some w) (hp : t.wpoly w = some p) (hpq : p = q ∨ p = q') :
    cnt t x iw = 1 ↔ p = q' := by
  obtain ⟨n1, n2, n3, n4, n5, n6⟩ := h.names
  have hN := hs.nested.nest
  have hqq : q ≠ q' := fun hh => h.q2 (hh ▸ h.q1)
  have hwl : w ∈ t.wid.live := by
    obtain ⟨w', w1, w2, _⟩ := ht.wires.lab d hx.live
    rw [hw] at w1
    cases w1
    exact w2
  by_cases w1 : w = uw
  · subst w1
    rw [h.wu] at hp
    cases hp
    rw [h.sides w d x n4 hx hw]
    exact iff_of_false n1 hqq
  · by_cases w2 : w = iw
    · subst w2
      rw [h.wi] at hp
      cases hp
      rw [h.sides w d x n5 hx hw]
      exact iff_of_true rfl rfl
    · obtain ⟨m1, m2⟩ := n6 w w1 w2
      have hws := ((h.wl w).1 hwl).resolve_right m2
      rcases h.rest w hws m1 with ⟨_, _, r2, r3⟩ | ⟨_, r2, r3⟩
      · rw [r2] at hp
        cases hp
        exact iff_of_true (r3 d x hx hw) rfl
      · rw [r2] at hp
        obtain ⟨p', hpl, hp', hor⟩ := hN.pols w hws
        rw [hp] at hp'
        cases hp'
        have hpn : p ≠ q' := fun hh => h.q2 (hh ▸ hpl)
        have hpe := hpq.resolve_right hpn
        subst hpe
        refine iff_of_false ?_ hpn
        rcases hor with hor | hor
        · exact h.frame hg hs hG ht (fun hh => m1 (hor.symm.trans hh)) hx (hor.symm ▸ hw)
        · exact r3 hor d x hx hw

/-- The polygon of a point beside a side. -/
theorem Divide.find (hg : ArgOk g) (h : Divide s t e ow lw q q' iw uw) (hs : Drawn g s) (hG : Good s) (ht : Drawn g t) {d : HE} {x : K × K}
    (hx : Sees t d x) {w p p1 : Id} (hw : t.wire d = some w) (hp : t.wpoly w = some p) (hp1 : p1 ∈ t.qid.live) (he : Exact t x p1) :
    p1 = p := by
  obtain ⟨n1, n2, n3, n4, n5, n6⟩ := h.names
  have hN := hs.nested.nest
  have hN' := ht.nested.nest
  have hqq : q ≠ q' := fun hh => h.q2 (hh ▸ h.q1)
  have hwl : w ∈ t.wid.live := by
    obtain ⟨w', w1, w2, _⟩ := ht.nested.wires.lab d hx.live
    rw [hw] at w1
    cases w1
    exact w2
  have hl : ∀ w, w = ow ∨ w = lw → w ∈ t.wid.live := by
    rintro w (rfl | rfl)
    · exact (h.wl _).2 (Or.inl h.cut.owl)
    · exact (h.wl _).2 (Or.inr rfl)
  have hpl : p ∈ t.qid.live := by
    obtain ⟨p', a, b, _⟩ := hN'.pols w hwl
    rw [hp] at b
    cases b
    exact a
  have live : ∀ r, r ∈ t.qid.live → (if r = q' then q else r) ∈ s.qid.live := by
    intro r hr
    by_cases k : r = q'
    · rw [if_pos k]; exact h.q1
    · rw [if_neg k]; exact ((h.ql r).1 hr).resolve_right k
  -- in the old drawing the point is in the polygon of the wire
  have hold : Exact s x (if p = q' then q else p) := by
    by_cases hu : w = ow ∨ w = lw
    · have := h.label hN hwl hp
      have hlo : (if w = lw then ow else w) = ow := by
        rcases hu with rfl | rfl
        · rw [if_neg h.cut.ne]
        · rw [if_pos rfl]
      rw [hlo, h.cut.poly] at this
      rw [← Option.some.inj this]
      exact h.cut.side hg hG ht.flat hu hx hw
    · have hde : d.1 ≠ e := by
        intro hh
        rcases eq_or_flip (h := d) (k := (e, true)) hh with rfl | rfl
        · rw [h.cut.w1] at hw
          exact hu (Or.inr (Option.some.inj hw).symm)
        · rw [show flip ((e, true) : HE) = (e, false) from rfl, h.cut.w0] at hw
          exact hu (Or.inl (Option.some.inj hw).symm)
      have hdl := ((h.cut.plus.iff _).1 hx.live).resolve_right hde
      obtain ⟨z, z1, z2⟩ := h.cut.fold d hdl
      rw [hw] at z1
      cases z1
      exact hG _ d x _ (h.cut.plus.toSub.sees hdl hx) z2 (h.label hN hwl hp)
  have hsame := (h.exact hN hN' hp1 he).unique hN (live p1 hp1) (live p hpl) hold
  by_cases hpq : p = q ∨ p = q'
  · have hp1q : p1 = q ∨ p1 = q' := by
      have e1 : (if p = q' then q else p) = q := by
        rcases hpq with rfl | rfl
        · rw [if_neg hqq]
        · rw [if_pos rfl]
      rw [e1] at hsame
      by_cases k : p1 = q'
      · exact Or.inr k
      · rw [if_neg k] at hsame
        exact Or.inl hsame
    have hb := h.beside hg hs hG ht.flat hx hw hp hpq
    have hoq' : t.outer q' = iw := by rw [h.outer, if_pos rfl]
    have hoq : t.outer q = s.outer q := by rw [h.outer, if_neg hqq]
    have hiff : cnt t x iw = 1 ↔ p1 = q' := by
      have hx1 := he iw (hl iw n5)
      rcases hp1q with rfl | rfl
      · refine iff_of_false (fun hh => ?_) hqq
        have ha := hx1.1 (Or.inr hh)
        rw [hoq] at ha
        have hch := hN'.chain iw (hl iw n5)
        rcases h.kind with ⟨k1, k2, k3, k4⟩ | ⟨k1, k2, k3, k4⟩
        · obtain ⟨r, hr, _⟩ := hN.up ow h.cut.owl h.cut.ow0
          rw [k1, ← k2, anc_some (k3.trans hr)] at ha
          rcases ha with ha | ha
          · exact n1 ha.symm
          · exact hch.not_anc hN'.p0 (k4.trans hr) ha
        · exact hch.not_anc hN'.p0 k4 (.head k3 ha)
      · refine iff_of_true ?_ rfl
        exact (hx1.2 (by rw [hoq']; exact .refl)).resolve_left n3
    rcases hpq with rfl | rfl
    · rcases hp1q with k | k
      · exact k
      · exact absurd (hb.1 (hiff.2 k)) hqq
    · exact hiff.1 (hb.2 rfl)
  · rw [not_or] at hpq
    rw [if_neg hpq.2] at hsame
    by_cases k : p1 = q'
    · rw [if_pos k] at hsame
      exact absurd hsame.symm hpq.1
    · rwa [if_neg k] at hsame

/-- Points beside sides are in the polygons of the wires when a polygon was divided. -/
theorem Divide.good (hg : ArgOk g) (h : Divide s t e ow lw q q' iw uw) (hs : Drawn g s) (hG : Good s) (ht : Drawn g t) : Good t := by
  have hN' := ht.nested.nest
  have all : ∀ x, Off t x → ∃ p ∈ t.qid.live, Exact t x p := by
    intro x hx
    refine ray_ind ht.links ht.planar (P := fun x => ∃ p ∈ t.qid.live, Exact t x p) ?_ ?_ ?_ x hx
    · intro x hx
      refine ⟨0, hN'.q0, fun w _ => ?_⟩
      rw [cnt_beyond hx, hN'.o0, anc_none hN'.p0]
      simp
    · rintro x y hc ⟨p, hp, he⟩
      exact ⟨p, hp, he.congr (cnt_path ht.links ht.nested.wires hc).symm⟩
    · rintro d x y hx hy ⟨p1, hp1, he⟩
      obtain ⟨w, p, hw, _, _, hp, hpl⟩ := ht.nested.side hx.live
      obtain ⟨w', p', hw', _, _, hp', hpl'⟩ := ht.nested.side hy.live
      have := h.find hg hs hG ht hy hw' hp' hp1 he
      subst this
      exact ⟨p, hpl, exact_cross ht hx hy hw hw' hp hp' he⟩
  intro w d x p hx hw hp
  obtain ⟨p1, hp1, he⟩ := all x hx.off
  have := h.find hg hs hG ht hx hw hp hp1 he
  subst this
  exact he

end
end Verif.Decomp
