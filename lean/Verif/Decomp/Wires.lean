import Verif.Decomp.Run

/-! Wires: the sides labelled by a wire are one closed walk along `next`. -/
namespace Verif.Decomp

variable {K : Type}

/-- The sides with the label `w` are the closed walk `l`. -/
structure CycOf (s : St K) (w : Id) (l : List HE) : Prop where
  ne : l ≠ []
  nd : l.Nodup
  path : ∃ a, Path s.next a l a
  mem : ∀ d : HE, d ∈ l ↔ d.1 ∈ s.sid.live ∧ s.wire d = some w

/-- Every side has a wire, the sides of each wire but the root are one closed walk, and the wire stores one of them. -/
structure Wires (s : St K) : Prop where
  root : 0 ∈ s.wid.live
  lab : ∀ d : HE, d.1 ∈ s.sid.live → ∃ w, s.wire d = some w ∧ w ∈ s.wid.live ∧ w ≠ 0
  cyc : ∀ w ∈ s.wid.live, w ≠ 0 → ∃ l, CycOf s w l
  seg : ∀ w ∈ s.wid.live, w ≠ 0 → ∃ d, s.wseg w = some d ∧ d.1 ∈ s.sid.live ∧ s.wire d = some w
  par : ∀ w ∈ s.wid.live, w ≠ 0 → s.parent w ≠ none

theorem Wires.frame {s s' : St K} (h : Wires s) (h1 : s'.wid = s.wid) (h2 : s'.sid = s.sid) (h3 : s'.wire = s.wire)
    (h4 : s'.next = s.next) (h5 : s'.wseg = s.wseg) (h6 : s'.parent = s.parent) : Wires s' := by
  obtain ⟨a, b, c, d, e⟩ := h
  refine ⟨h1 ▸ a, ?_, ?_, ?_, ?_⟩
  · rw [h1, h2, h3]; exact b
  · rw [h1]
    intro w hw h0
    obtain ⟨l, hl⟩ := c w hw h0
    refine ⟨l, hl.ne, hl.nd, ?_, ?_⟩
    · rw [h4]; exact hl.path
    · rw [h2, h3]; exact hl.mem
  · rw [h1, h2, h3, h5]; exact d
  · rw [h1, h6]; exact e

/-- A closed walk cut after one of its sides. -/
theorem CycOf.open_ {s : St K} {w : Id} {l : List HE} (h : CycOf s w l) {x z : HE} (hx : x ∈ l) (hn : s.next x = some z) :
    ∃ m, Path s.next z m x ∧ (m ++ [x]).Nodup ∧ ∀ d, d ∈ m ++ [x] ↔ d ∈ l := by
  obtain ⟨a, ha⟩ := h.path
  obtain ⟨z', hz, hz'⟩ := path_succ ha hx
  rw [hn] at hz'
  obtain rfl := Option.some.inj hz'
  obtain ⟨l', h1, h2, h3⟩ := path_from ha h.nd hz
  have hne : (z :: l') ≠ [] := by simp
  rw [← List.dropLast_append_getLast hne] at h1
  have h4 := path_last h1
  have hy : (z :: l').getLast hne ∈ l := h2.subset (List.getLast_mem hne)
  have hyx := path_inj ha h.nd hy hx h4 hn
  rw [path_append] at h1
  obtain ⟨c, h5, h6⟩ := h1
  obtain rfl := path_head h6
  refine ⟨(z :: l').dropLast, hyx ▸ h5, ?_, fun d => ?_⟩
  · rw [← hyx, List.dropLast_append_getLast hne]; exact h3
  · rw [← hyx, List.dropLast_append_getLast hne]
    exact h2.mem_iff

theorem CycOf.keep {s s' : St K} {w : Id} {l : List HE} (h : CycOf s w l) (h1 : ∀ d ∈ l, s'.next d = s.next d)
    (h2 : ∀ d : HE, (d.1 ∈ s'.sid.live ∧ s'.wire d = some w) ↔ (d.1 ∈ s.sid.live ∧ s.wire d = some w)) : CycOf s' w l := by
  refine ⟨h.ne, h.nd, ?_, fun d => ?_⟩
  · obtain ⟨a, ha⟩ := h.path
    exact ⟨a, path_congr h1 ha⟩
  · rw [h.mem, h2]

/-- All sides of a closed walk that is shorter are found by following it. -/
theorem CycOf.next_mem {s : St K} {w : Id} {l : List HE} (h : CycOf s w l) {x z : HE} (hx : x ∈ l)
    (hn : s.next x = some z) : z ∈ l := by
  obtain ⟨a, ha⟩ := h.path
  obtain ⟨z', hz, hz'⟩ := path_succ ha hx
  rw [hn] at hz'
  obtain rfl := Option.some.inj hz'
  exact hz

/-- The next side has the same wire. -/
theorem Wires.next_wire {s : St K} (h : Wires s) {x z : HE} (hx : x.1 ∈ s.sid.live) (hn : s.next x = some z) :
    z.1 ∈ s.sid.live ∧ s.wire z = s.wire x := by
  obtain ⟨w, hw, hwl, hw0⟩ := h.lab x hx
  obtain ⟨l, hl⟩ := h.cyc w hwl hw0
  have := (hl.mem z).1 (hl.next_mem ((hl.mem x).2 ⟨hx, hw⟩) hn)
  exact ⟨this.1, this.2.trans hw.symm⟩

theorem init_wires [Zero K] : Wires (init : St K) := by
  refine ⟨by simp [init], by simp [init], ?_, ?_, ?_⟩ <;>
  · intro w hw h0
    simp [init] at hw
    exact absurd hw h0

section
variable [Field K]

theorem newWire_wires {s s' : St K} {e a b q : Id} (hW : Wires s) (hwi : s.wid.Ok) (hA : AddSeg s s' e a b)
    (hw : s'.wid = s.wid.append.2) (hp : s'.parent = upd s.parent s.wid.append.1 (some (s.outer q)))
    (hs : s'.wseg = upd s.wseg s.wid.append.1 (some (e, false)))
    (ho : ∀ d : HE, d.1 ≠ e → s'.wire d = s.wire d ∧ s'.next d = s.next d)
    (he : ∀ v, s'.wire (e, v) = some s.wid.append.1 ∧ s'.next (e, v) = some (e, !v)) : Wires s' := by
  obtain ⟨h1, h2, h3⟩ := Ids.append_ok hwi
  have hne : ∀ d : HE, d.1 ∈ s.sid.live → d.1 ≠ e := fun d hd hh => hA.fresh (hh ▸ hd)
  have hml : ∀ w, w ∈ s'.wid.live ↔ w ∈ s.wid.live ∨ w = s.wid.append.1 := by intro w; rw [hw, h2]; simp
  have hn0 : s.wid.append.1 ≠ 0 := fun hh => h1 (hh ▸ hW.root)
  generalize s.wid.append.1 = n at *
  have hwn : ∀ d : HE, d.1 ∈ s.sid.live → s.wire d ≠ some n := by
    intro d hd hh
    obtain ⟨w, g1, g2, _⟩ := hW.lab d hd
    rw [g1] at hh
    exact h1 (Option.some.inj hh ▸ g2)
  have hiff : ∀ w, w ≠ n → ∀ d : HE, (d.1 ∈ s'.sid.live ∧ s'.wire d = some w) ↔ (d.1 ∈ s.sid.live ∧ s.wire d = some w) := by
    intro w hwn d
    rw [hA.live]
    by_cases hde : d.1 = e
    · obtain ⟨d1, v⟩ := d
      subst hde
      rw [(he v).1]
      constructor
      · rintro ⟨_, hh⟩; exact absurd (Option.some.inj hh).symm hwn
      · rintro ⟨hh, _⟩; exact absurd hh hA.fresh
    · rw [(ho d hde).1]; simp [hde]
  refine ⟨(hml 0).2 (Or.inl hW.root), fun d hd => ?_, fun w hwl hw0 => ?_, fun w hwl hw0 => ?_, fun w hwl hw0 => ?_⟩
  · by_cases hde : d.1 = e
    · obtain ⟨d1, v⟩ := d
      subst hde
      exact ⟨n, (he v).1, (hml _).2 (Or.inr rfl), hn0⟩
    · obtain ⟨w, g1, g2, g3⟩ := hW.lab d (((hA.live _).1 hd).resolve_right hde)
      exact ⟨w, by rw [(ho d hde).1]; exact g1, (hml _).2 (Or.inl g2), g3⟩
  · by_cases hwn' : w = n
    · subst hwn'
      refine ⟨[(e, false), (e, true)], by simp, by simp, ⟨(e, false), rfl, (e, true), (he false).2, rfl, (e, false),
        (he true).2, rfl⟩, fun d => ?_⟩
      rw [hA.live]
      obtain ⟨d1, v⟩ := d
      constructor
      · intro hd
        have hd1 : d1 = e := by
          rcases List.mem_cons.1 hd with h | h
          · exact (Prod.mk.inj h).1
          · exact (Prod.mk.inj (List.mem_singleton.1 h)).1
        subst hd1
        exact ⟨Or.inr rfl, (he v).1⟩
      · rintro ⟨hl, hwd⟩
        by_cases hde : d1 = e
        · subst hde; cases v <;> simp
        · rw [(ho _ hde).1] at hwd
          exact absurd hwd (hwn _ (hl.resolve_right hde))
    · obtain ⟨l, hl⟩ := hW.cyc w (((hml w).1 hwl).resolve_right hwn') hw0
      exact ⟨l, hl.keep (fun d hd => (ho d (hne d ((hl.mem d).1 hd).1)).2) (hiff w hwn')⟩
  · rw [hs]
    by_cases hwn' : w = n
    · subst hwn'
      exact ⟨(e, false), by simp [upd], (hA.live e).2 (Or.inr rfl), (he false).1⟩
    · obtain ⟨d, g1, g2, g3⟩ := hW.seg w (((hml w).1 hwl).resolve_right hwn') hw0
      simp only [upd, Function.update_of_ne hwn']
      exact ⟨d, g1, (hiff w hwn' d).2 ⟨g2, g3⟩⟩
  · rw [hp]
    by_cases hwn' : w = n
    · subst hwn'; simp [upd]
    · simp only [upd, Function.update_of_ne hwn']
      exact hW.par w (((hml w).1 hwl).resolve_right hwn') hw0

theorem addDendrite_wires {s s' : St K} {e a b p : Id} {i : Ins} {root : Bool} (hW : Wires s) (hA : AddSeg s s' e a b)
    (hC : Corner s p i) (hw : s'.wid = s.wid) (hp : s'.parent = s.parent) (hs : s'.wseg = s.wseg)
    (ho : ∀ d : HE, d.1 ≠ e → s'.wire d = s.wire d ∧ (d ≠ i.1 → s'.next d = s.next d))
    (he : ∀ v, s'.wire (e, v) = i.2.2) (h1 : s'.next (e, root) = some i.2.1) (h2 : s'.next i.1 = some (e, !root))
    (h3 : s'.next (e, !root) = some (e, root)) : Wires s' := by
  have hne : ∀ d : HE, d.1 ∈ s.sid.live → d.1 ≠ e := fun d hd hh => hA.fresh (hh ▸ hd)
  obtain ⟨w0, gw, gl, g0⟩ := hW.lab i.1 hC.live
  have hi2 : i.2.2 = some w0 := hC.wir.trans gw
  have hiff : ∀ w, w ≠ w0 → ∀ d : HE, (d.1 ∈ s'.sid.live ∧ s'.wire d = some w) ↔ (d.1 ∈ s.sid.live ∧ s.wire d = some w) := by
    intro w hwn d
    rw [hA.live]
    by_cases hde : d.1 = e
    · obtain ⟨d1, v⟩ := d
      subst hde
      rw [he v, hi2]
      constructor
      · rintro ⟨_, hh⟩; exact absurd (Option.some.inj hh).symm hwn
      · rintro ⟨hh, _⟩; exact absurd hh hA.fresh
    · rw [(ho d hde).1]; simp [hde]
  refine ⟨hw ▸ hW.root, fun d hd => ?_, fun w hwl hw0 => ?_, fun w hwl hw0 => ?_, fun w hwl hw0 => ?_⟩
  · rw [hw]
    by_cases hde : d.1 = e
    · obtain ⟨d1, v⟩ := d
      subst hde
      exact ⟨w0, (he v).trans hi2, gl, g0⟩
    · rw [(ho d hde).1]
      exact hW.lab d (((hA.live _).1 hd).resolve_right hde)
  · rw [hw] at hwl
    obtain ⟨l, hl⟩ := hW.cyc w hwl hw0
    by_cases hww : w = w0
    · subst hww
      have hil := (hl.mem i.1).2 ⟨hC.live, gw⟩
      obtain ⟨m, m1, m2, m3⟩ := hl.open_ hil hC.nxt
      have hme : ∀ d ∈ m ++ [i.1], d.1 ≠ e := fun d hd => hne d ((hl.mem d).1 ((m3 d).1 hd)).1
      have him : i.1 ∉ m := by
        intro hh
        rw [List.nodup_append] at m2
        exact m2.2.2 _ hh i.1 (by simp) rfl
      refine ⟨(m ++ [i.1]) ++ [(e, !root), (e, root)], by simp, ?_, ⟨i.2.1, ?_⟩, fun d => ?_⟩
      · rw [List.nodup_append]
        refine ⟨m2, by simp, fun x hx y hy hxy => ?_⟩
        subst hxy
        apply hme x hx
        rcases List.mem_cons.1 hy with h | h
        · rw [h]
        · rw [List.mem_singleton.1 h]
      · rw [path_append]
        refine ⟨(e, !root), path_snoc (path_congr (fun d hd => ?_) m1) h2, rfl, (e, root), h3, rfl, _, h1, rfl⟩
        exact (ho d (hme d (by simp [hd]))).2 (fun hh => him (hh ▸ hd))
      · rw [List.mem_append, m3, hl.mem, hA.live]
        obtain ⟨d1, v⟩ := d
        by_cases hde : d1 = e
        · subst hde
          rw [he v, hi2]
          have : ((d1, v) : HE) ∈ [(d1, !root), (d1, root)] := by cases v <;> cases root <;> simp
          simp [this]
        · have : ((d1, v) : HE) ∉ [(e, !root), (e, root)] := by simp [hde]
          rw [(ho _ hde).1]
          simp [this, hde]
    · refine ⟨l, hl.keep (fun d hd => ?_) (hiff w hww)⟩
      have hd' := (hl.mem d).1 hd
      refine (ho d (hne d hd'.1)).2 (fun hh => hww ?_)
      rw [hh, gw] at hd'
      exact (Option.some.inj hd'.2).symm
  · rw [hw] at hwl
    obtain ⟨d, g1, g2, g3⟩ := hW.seg w hwl hw0
    rw [hs]
    exact ⟨d, g1, (hA.live _).2 (Or.inl g2), by rw [(ho d (hne d g2)).1]; exact g3⟩
  · rw [hp]
    exact hW.par w (hw ▸ hwl) hw0

/-- The same decomposition with other parents of wires. -/
theorem Wires.frame' {s s' : St K} (h : Wires s) (h1 : s'.wid = s.wid) (h2 : s'.sid = s.sid) (h3 : s'.wire = s.wire)
    (h4 : s'.next = s.next) (h5 : s'.wseg = s.wseg) (h6 : ParLe s s') : Wires s' := by
  obtain ⟨a, b, c, d, e⟩ := h
  refine ⟨h1 ▸ a, ?_, ?_, ?_, ?_⟩
  · rw [h1, h2, h3]; exact b
  · rw [h1]
    intro w hw h0
    obtain ⟨l, hl⟩ := c w hw h0
    refine ⟨l, hl.ne, hl.nd, ?_, ?_⟩
    · rw [h4]; exact hl.path
    · rw [h2, h3]; exact hl.mem
  · rw [h1, h2, h3, h5]; exact d
  · rw [h1]; exact fun w hw h0 => h6 w (e w hw h0)

theorem joinWires_wires {s s' : St K} {e a b : Id} {ia ib : Ins} {aw bw keep rm : Id} {l : List HE} {P : Option Id}
    (hW : Wires s) (hwi : s.wid.Ok) (hA : AddSeg s s' e a b) (hS : Spliced s s' e ia ib) (hCa : Corner s a ia)
    (hCb : Corner s b ib) (haw : ia.2.2 = some aw) (hbw : ib.2.2 = some bw) (hab : aw ≠ bw)
    (hk : (keep = aw ∧ rm = bw) ∨ (keep = bw ∧ rm = aw))
    (hl : (s.parent rm = none ∧ l = []) ∨ (s.parent rm ≠ none ∧ l ≠ [] ∧
      ((rm = bw ∧ Path s'.next (e, true) l (e, false) ∧ (e, false) ∉ l.tail) ∨
        (rm = aw ∧ Path s'.next (e, false) l (e, true) ∧ (e, true) ∉ l.tail))))
    (hw : ∀ d : HE, d.1 ≠ e → s'.wire d = if d ∈ l then some keep else s.wire d)
    (h0 : s'.wire (e, false) = some keep) (h1 : (e, true) ∈ l ∨ rm = aw → s'.wire (e, true) = some keep)
    (hwid : s.wid.remove rm = .ok s'.wid) (hs : s'.wseg = s.wseg)
    (hp : ∀ c, s'.parent c = if c ∈ s.childs rm then P else s.parent c) (hP : s.parent keep ≠ none → P ≠ none) :
    Wires s' := by
  have hne : ∀ d : HE, d.1 ∈ s.sid.live → d.1 ≠ e := fun d hd hh => hA.fresh (hh ▸ hd)
  have gaw : s.wire ia.1 = some aw := hCa.wir.symm.trans haw
  have gbw : s.wire ib.1 = some bw := hCb.wir.symm.trans hbw
  obtain ⟨aw', ga, gal, ga0⟩ := hW.lab ia.1 hCa.live
  obtain rfl : aw = aw' := Option.some.inj (gaw.symm.trans ga)
  obtain ⟨bw', gb, gbl, gb0⟩ := hW.lab ib.1 hCb.live
  obtain rfl : bw = bw' := Option.some.inj (gbw.symm.trans gb)
  clear ga gb
  obtain ⟨la, hla⟩ := hW.cyc aw gal ga0
  obtain ⟨lb, hlb⟩ := hW.cyc bw gbl gb0
  obtain ⟨ma, a1, a2, a3⟩ := hla.open_ ((hla.mem _).2 ⟨hCa.live, gaw⟩) hCa.nxt
  obtain ⟨mb, b1, b2, b3⟩ := hlb.open_ ((hlb.mem _).2 ⟨hCb.live, gbw⟩) hCb.nxt
  have a4 : ∀ d, d ∈ ma ++ [ia.1] ↔ d.1 ∈ s.sid.live ∧ s.wire d = some aw := fun d => (a3 d).trans (hla.mem d)
  have b4 : ∀ d, d ∈ mb ++ [ib.1] ↔ d.1 ∈ s.sid.live ∧ s.wire d = some bw := fun d => (b3 d).trans (hlb.mem d)
  have hia : ia.1 ∉ ma := by
    intro hh
    rw [List.nodup_append] at a2
    exact a2.2.2 _ hh ia.1 (by simp) rfl
  have hib : ib.1 ∉ mb := by
    intro hh
    rw [List.nodup_append] at b2
    exact b2.2.2 _ hh ib.1 (by simp) rfl
  have hae : ∀ d ∈ ma ++ [ia.1], d.1 ≠ e := fun d hd => hne d ((a4 d).1 hd).1
  have hbe : ∀ d ∈ mb ++ [ib.1], d.1 ≠ e := fun d hd => hne d ((b4 d).1 hd).1
  have hdj : ∀ d, d ∈ ma ++ [ia.1] → d ∈ mb ++ [ib.1] → False := by
    intro d h1 h2
    have := ((a4 d).1 h1).2
    rw [((b4 d).1 h2).2] at this
    exact hab (Option.some.inj this).symm
  have a5 : Path s'.next ia.2.1 (ma ++ [ia.1]) (e, true) := by
    refine path_snoc (path_congr (fun d hd => ?_) a1) hS.pa
    exact hS.other d (hae d (by simp [hd])) (fun hh => hia (hh ▸ hd)) (fun hh => hdj ib.1 (by simp [← hh, hd]) (by simp))
  have b5 : Path s'.next ib.2.1 (mb ++ [ib.1]) (e, false) := by
    refine path_snoc (path_congr (fun d hd => ?_) b1) hS.pb
    exact hS.other d (hbe d (by simp [hd])) (fun hh => hdj ia.1 (by simp) (by simp [← hh, hd])) (fun hh => hib (hh ▸ hd))
  clear a1 b1 hia hib hla hlb a3 b3
  generalize ma ++ [ia.1] = A at *
  generalize mb ++ [ib.1] = B at *
  have hrl : rm ∈ s.wid.live ∧ rm ≠ 0 := by
    rcases hk with ⟨_, rfl⟩ | ⟨_, rfl⟩
    · exact ⟨gbl, gb0⟩
    · exact ⟨gal, ga0⟩
  have hkl : keep ∈ s.wid.live ∧ keep ≠ 0 ∧ keep ≠ rm := by
    rcases hk with ⟨rfl, rfl⟩ | ⟨rfl, rfl⟩
    · exact ⟨gal, ga0, hab⟩
    · exact ⟨gbl, gb0, hab.symm⟩
  have hl' : (rm = bw ∧ l = (e, true) :: B) ∨ (rm = aw ∧ l = (e, false) :: A) := by
    obtain ⟨_, l1, l2⟩ := hl.resolve_left (fun hh => hW.par rm hrl.1 hrl.2 hh.1)
    rcases l2 with ⟨q1, q2, q3⟩ | ⟨q1, q2, q3⟩
    · refine Or.inl ⟨q1, path_first q2 ⟨rfl, _, hS.e1, b5⟩ l1 (by simp) q3 ?_⟩
      exact fun hh => hbe _ hh rfl
    · refine Or.inr ⟨q1, path_first q2 ⟨rfl, _, hS.e0, a5⟩ l1 (by simp) q3 ?_⟩
      exact fun hh => hae _ hh rfl
  have hml : ∀ d : HE, d.1 ∈ s.sid.live → (d ∈ l ↔ s.wire d = some rm) := by
    intro d hd
    rcases hl' with ⟨rfl, rfl⟩ | ⟨rfl, rfl⟩
    · rw [List.mem_cons, b4]
      have : d ≠ (e, true) := fun hh => hne d hd (by rw [hh])
      simp [this, hd]
    · rw [List.mem_cons, a4]
      have : d ≠ (e, false) := fun hh => hne d hd (by rw [hh])
      simp [this, hd]
  have h1' : s'.wire (e, true) = some keep := by
    apply h1
    rcases hl' with ⟨rfl, rfl⟩ | ⟨rfl, rfl⟩
    · exact Or.inl (by simp)
    · exact Or.inr rfl
  have hwe : ∀ v, s'.wire (e, v) = some keep := fun v => by cases v; exacts [h0, h1']
  have hw' : ∀ d : HE, d.1 ∈ s.sid.live → s'.wire d = if s.wire d = some rm then some keep else s.wire d := by
    intro d hd
    rw [hw d (hne d hd)]
    simp only [hml d hd]
  clear hw h1 h0 h1' hml hl hl'
  have hmw : ∀ w, w ∈ s'.wid.live ↔ w ≠ rm ∧ w ∈ s.wid.live := (Ids.remove_ok hwi hwid).2.2.2
  refine ⟨(hmw 0).2 ⟨hrl.2.symm, hW.root⟩, fun d hd => ?_, fun w hwl hw0 => ?_, fun w hwl hw0 => ?_, fun w hwl hw0 => ?_⟩
  · by_cases hde : d.1 = e
    · obtain ⟨d1, v⟩ := d
      subst hde
      exact ⟨keep, hwe v, (hmw _).2 ⟨hkl.2.2, hkl.1⟩, hkl.2.1⟩
    · have hdl := ((hA.live _).1 hd).resolve_right hde
      obtain ⟨w, g1, g2, g3⟩ := hW.lab d hdl
      rw [hw' d hdl, g1]
      by_cases hwr : w = rm
      · subst hwr
        exact ⟨keep, by simp, (hmw _).2 ⟨hkl.2.2, hkl.1⟩, hkl.2.1⟩
      · exact ⟨w, by simp [hwr], (hmw _).2 ⟨hwr, g2⟩, g3⟩
  · obtain ⟨hwr, hwl⟩ := (hmw w).1 hwl
    by_cases hwk : w = keep
    · subst hwk
      refine ⟨A ++ ((e, true) :: (B ++ [(e, false)])), by simp, ?_, ⟨ia.2.1, ?_⟩, fun d => ?_⟩
      · rw [List.nodup_append, List.nodup_cons, List.nodup_append]
        refine ⟨a2, ⟨?_, b2, by simp, ?_⟩, ?_⟩
        · simp only [List.mem_append, List.mem_singleton, not_or]
          exact ⟨fun hh => hbe _ hh rfl, by simp⟩
        · intro x hx y hy hxy
          rw [List.mem_singleton] at hy
          subst hxy
          exact hbe x hx (by rw [hy])
        · intro x hx y hy hxy
          subst hxy
          simp only [List.mem_cons, List.mem_append, List.not_mem_nil, or_false] at hy
          rcases hy with hy | hy | hy
          · exact hae x hx (by rw [hy])
          · exact hdj x hx hy
          · exact hae x hx (by rw [hy])
      · rw [path_append]
        exact ⟨_, a5, rfl, _, hS.e1, path_snoc b5 hS.e0⟩
      · rw [hA.live]
        simp only [List.mem_append, List.mem_cons, List.not_mem_nil, or_false]
        rw [a4, b4]
        obtain ⟨d1, v⟩ := d
        by_cases hde : d1 = e
        · subst hde
          rw [hwe v]
          cases v <;> simp
        · by_cases hdl : d1 ∈ s.sid.live
          · rw [hw' (d1, v) hdl]
            simp only [hdl, true_and, Prod.mk.injEq, hde, false_and, false_or, or_false]
            by_cases hr : s.wire (d1, v) = some rm
            · rw [if_pos hr]
              rcases hk with ⟨rfl, rfl⟩ | ⟨rfl, rfl⟩ <;> simp [hr]
            · rw [if_neg hr]
              rcases hk with ⟨rfl, rfl⟩ | ⟨rfl, rfl⟩ <;> simp [hr]
          · simp [hdl, hde]
    · obtain ⟨l0, hl0⟩ := hW.cyc w hwl hw0
      have hwab : w ≠ aw ∧ w ≠ bw := by
        rcases hk with ⟨rfl, rfl⟩ | ⟨rfl, rfl⟩
        · exact ⟨hwk, hwr⟩
        · exact ⟨hwr, hwk⟩
      refine ⟨l0, hl0.keep (fun d hd => ?_) (fun d => ?_)⟩
      · obtain ⟨q1, q2⟩ := (hl0.mem d).1 hd
        refine hS.other d (hne d q1) (fun hh => hwab.1 ?_) (fun hh => hwab.2 ?_)
        · rw [hh, gaw] at q2; exact (Option.some.inj q2).symm
        · rw [hh, gbw] at q2; exact (Option.some.inj q2).symm
      · rw [hA.live]
        obtain ⟨d1, v⟩ := d
        by_cases hde : d1 = e
        · subst hde
          rw [hwe v]
          simp only [or_true, true_and, Option.some.injEq]
          exact ⟨fun hh => absurd hh.symm hwk, fun hh => absurd hh.1 hA.fresh⟩
        · by_cases hdl : d1 ∈ s.sid.live
          · rw [hw' (d1, v) hdl]
            by_cases hr : s.wire (d1, v) = some rm
            · rw [if_pos hr, hr]
              simp [hdl, Ne.symm hwk, Ne.symm hwr]
            · rw [if_neg hr]
              simp [hdl]
          · simp [hdl, hde]
  · obtain ⟨hwr, hwl⟩ := (hmw w).1 hwl
    obtain ⟨d, g1, g2, g3⟩ := hW.seg w hwl hw0
    refine ⟨d, hs ▸ g1, (hA.live _).2 (Or.inl g2), ?_⟩
    rw [hw' d g2, g3, if_neg (fun hh => hwr (Option.some.inj hh))]
  · obtain ⟨hwr, hwl⟩ := (hmw w).1 hwl
    rw [hp]
    split
    · exact hP (hW.par _ hkl.1 hkl.2.1)
    · exact hW.par w hwl hw0

theorem splitPoly_wires {s s1 : St K} {e a b : Id} {ia ib : Ins} {ow lw q q' : Id} {l : List HE} (hW : Wires s)
    (hwi : s.wid.Ok) (hS : SplitPoly s s1 e a b ia ib ow lw q q' l) (hCa : Corner s a ia) (hCb : Corner s b ib) :
    Wires s1 ∧ s1.parent ow ≠ none := by
  have hA := hS.add
  have hne : ∀ d : HE, d.1 ∈ s.sid.live → d.1 ≠ e := fun d hd hh => hA.fresh (hh ▸ hd)
  obtain ⟨k1, k2, k3⟩ := Ids.append_ok hwi
  have hlw : lw ∉ s.wid.live := hS.hlw ▸ k1
  have hl0 : lw ≠ 0 := fun hh => hlw (hh ▸ hW.root)
  have hml : ∀ w, w ∈ s1.wid.live ↔ w ∈ s.wid.live ∨ w = lw := by intro w; rw [hS.wid, k2, hS.hlw]; simp
  have gaw : s.wire ia.1 = some ow := hCa.wir.symm.trans hS.hia
  have gbw : s.wire ib.1 = some ow := hCb.wir.symm.trans hS.hib
  obtain ⟨ow', ga, gal, ga0⟩ := hW.lab ia.1 hCa.live
  obtain rfl : ow = ow' := Option.some.inj (gaw.symm.trans ga)
  clear ga
  obtain ⟨lo, hlo⟩ := hW.cyc ow gal ga0
  obtain ⟨m, a1, a2, a3⟩ := hlo.open_ ((hlo.mem _).2 ⟨hCa.live, gaw⟩) hCa.nxt
  have a4 : ∀ d, d ∈ m ++ [ia.1] ↔ d.1 ∈ s.sid.live ∧ s.wire d = some ow := fun d => (a3 d).trans (hlo.mem d)
  have hae : ∀ d ∈ m ++ [ia.1], d.1 ≠ e := fun d hd => hne d ((a4 d).1 hd).1
  have hibm : ib.1 ∈ m := by
    have := (a4 ib.1).2 ⟨hCb.live, gbw⟩
    rw [List.mem_append, List.mem_singleton] at this
    exact this.resolve_right hS.splice.nab.symm
  obtain ⟨m1, m2, rfl⟩ := List.append_of_mem hibm
  rw [path_append] at a1
  obtain ⟨c, p1, rfl, y, p2, p3⟩ := a1
  have hy : ib.2.1 = y := Option.some.inj (hCb.nxt.symm.trans p2)
  subst hy
  have a2' : (m1 ++ [ib.1]).Nodup ∧ (m2 ++ [ia.1]).Nodup ∧ ∀ d, d ∈ m1 ++ [ib.1] → d ∈ m2 ++ [ia.1] → False := by
    have : m1 ++ ib.1 :: m2 ++ [ia.1] = (m1 ++ [ib.1]) ++ (m2 ++ [ia.1]) := by simp
    rw [this, List.nodup_append] at a2
    exact ⟨a2.1, a2.2.1, fun d h1 h2 => a2.2.2 d h1 d h2 rfl⟩
  have a4' : ∀ d, (d ∈ m1 ++ [ib.1] ∨ d ∈ m2 ++ [ia.1]) ↔ d.1 ∈ s.sid.live ∧ s.wire d = some ow := by
    intro d
    rw [← a4]
    simp only [List.mem_append, List.mem_cons, List.not_mem_nil, or_false]
    tauto
  have hBe : ∀ d ∈ m1 ++ [ib.1], d.1 ≠ e := fun d hd => hne d ((a4' d).1 (Or.inl hd)).1
  have hAe : ∀ d ∈ m2 ++ [ia.1], d.1 ≠ e := fun d hd => hne d ((a4' d).1 (Or.inr hd)).1
  obtain ⟨n1, n2, n3⟩ := a2'
  have hib1 : ib.1 ∉ m1 := by
    intro hh
    rw [List.nodup_append] at n1
    exact n1.2.2 _ hh ib.1 (by simp) rfl
  have hia2 : ia.1 ∉ m2 := by
    intro hh
    rw [List.nodup_append] at n2
    exact n2.2.2 _ hh ia.1 (by simp) rfl
  have B5 : Path s1.next ia.2.1 (m1 ++ [ib.1]) (e, false) := by
    refine path_snoc (path_congr (fun d hd => ?_) p1) hS.splice.pb
    exact hS.splice.other d (hBe d (by simp [hd])) (fun hh => n3 ia.1 (by simp [← hh, hd]) (by simp)) (fun hh => hib1 (hh ▸ hd))
  have A5 : Path s1.next ib.2.1 (m2 ++ [ia.1]) (e, true) := by
    refine path_snoc (path_congr (fun d hd => ?_) p3) hS.splice.pa
    exact hS.splice.other d (hAe d (by simp [hd])) (fun hh => hia2 (hh ▸ hd)) (fun hh => n3 ib.1 (by simp) (by simp [← hh, hd]))
  have hAne : m2 ++ [ia.1] ≠ [] := by simp
  clear p1 p2 p3 hib1 hia2 a4 a3 a2 hae hibm
  generalize m1 ++ [ib.1] = B at *
  generalize m2 ++ [ia.1] = A at *
  have hlA : l = A := by
    obtain ⟨_, l1, l2, l3⟩ := hS.walk.resolve_left (fun hh => hW.par ow gal ga0 hh.1)
    refine path_first l1 A5 l2 hAne l3 ?_
    exact fun hh => hAe _ (List.mem_of_mem_tail hh) rfl
  subst hlA
  have hwe0 : s1.wire (e, false) = some ow := by
    rw [hS.wir0, if_neg (fun hh => hAe _ hh rfl)]
  have hw' : ∀ d : HE, d.1 ∈ s.sid.live → s1.wire d = if d ∈ l then some lw else s.wire d := fun d hd => hS.wir d (hne d hd)
  have hwl' : ∀ d : HE, d.1 ∈ s.sid.live → s.wire d ≠ some lw := by
    intro d hd hh
    obtain ⟨w, g1, g2, _⟩ := hW.lab d hd
    rw [g1] at hh
    exact hlw (Option.some.inj hh ▸ g2)
  refine ⟨⟨(hml 0).2 (Or.inl hW.root), fun d hd => ?_, fun w hwl hw0 => ?_, fun w hwl hw0 => ?_, fun w hwl hw0 => ?_⟩, ?_⟩
  · by_cases hde : d.1 = e
    · obtain ⟨d1, v⟩ := d
      subst hde
      cases v
      · exact ⟨ow, hwe0, (hml _).2 (Or.inl gal), ga0⟩
      · exact ⟨lw, hS.wir1, (hml _).2 (Or.inr rfl), hl0⟩
    · have hdl := ((hA.live _).1 hd).resolve_right hde
      rw [hw' d hdl]
      split
      · exact ⟨lw, rfl, (hml _).2 (Or.inr rfl), hl0⟩
      · obtain ⟨w, g1, g2, g3⟩ := hW.lab d hdl
        exact ⟨w, g1, (hml _).2 (Or.inl g2), g3⟩
  · by_cases hwk : w = lw
    · subst hwk
      refine ⟨l ++ [(e, true)], by simp, ?_, ⟨ib.2.1, path_snoc A5 hS.splice.e1⟩, fun d => ?_⟩
      · rw [List.nodup_append]
        refine ⟨n2, by simp, fun x hx y hy hxy => ?_⟩
        rw [List.mem_singleton] at hy
        subst hxy
        exact hAe x hx (by rw [hy])
      · rw [hA.live, List.mem_append, List.mem_singleton]
        obtain ⟨d1, v⟩ := d
        by_cases hde : d1 = e
        · subst hde
          have : ((d1, v) : HE) ∉ l := fun hh => hAe _ hh rfl
          cases v
          · simp [hwe0, hS.ne, this]
          · simp [hS.wir1]
        · by_cases hdl : d1 ∈ s.sid.live
          · rw [hw' (d1, v) hdl]
            by_cases hd : ((d1, v) : HE) ∈ l
            · simp [hd, hdl]
            · simp [hd, hdl, hde, hwl' (d1, v) hdl]
          · have : ((d1, v) : HE) ∉ l := fun hh => hdl ((a4' _).1 (Or.inr hh)).1
            simp [this, hde, hdl]
    · have hwl := ((hml w).1 hwl).resolve_right hwk
      by_cases hwo : w = ow
      · subst hwo
        refine ⟨B ++ [(e, false)], by simp, ?_, ⟨ia.2.1, path_snoc B5 hS.splice.e0⟩, fun d => ?_⟩
        · rw [List.nodup_append]
          refine ⟨n1, by simp, fun x hx y hy hxy => ?_⟩
          rw [List.mem_singleton] at hy
          subst hxy
          exact hBe x hx (by rw [hy])
        · rw [hA.live, List.mem_append, List.mem_singleton]
          obtain ⟨d1, v⟩ := d
          by_cases hde : d1 = e
          · subst hde
            have : ((d1, v) : HE) ∉ B := fun hh => hBe _ hh rfl
            cases v
            · simp [hwe0]
            · simp [hS.wir1, this, Ne.symm hS.ne]
          · have h1 := a4' (d1, v)
            have h2 := n3 (d1, v)
            by_cases hdl : d1 ∈ s.sid.live
            · rw [hw' (d1, v) hdl]
              simp only [Prod.mk.injEq, hde, false_and, or_false, hdl, true_and]
              simp only [hdl, true_and] at h1
              by_cases hd : ((d1, v) : HE) ∈ l
              · simp only [hd, if_true, Option.some.injEq]
                exact ⟨fun hh => (h2 hh hd).elim, fun hh => absurd hh (Ne.symm hS.ne)⟩
              · simp only [hd, if_false]
                simpa [hd] using h1
            · have : ((d1, v) : HE) ∉ B := fun hh => hdl (h1.1 (Or.inl hh)).1
              simp [this, hde, hdl]
      · obtain ⟨l0, hl0⟩ := hW.cyc w hwl hw0
        refine ⟨l0, hl0.keep (fun d hd => ?_) (fun d => ?_)⟩
        · obtain ⟨q1, q2⟩ := (hl0.mem d).1 hd
          refine hS.splice.other d (hne d q1) (fun hh => hwo ?_) (fun hh => hwo ?_)
          · rw [hh, gaw] at q2; exact (Option.some.inj q2).symm
          · rw [hh, gbw] at q2; exact (Option.some.inj q2).symm
        · rw [hA.live]
          obtain ⟨d1, v⟩ := d
          by_cases hde : d1 = e
          · subst hde
            cases v
            · simp [hwe0, Ne.symm hwo, hA.fresh]
            · simp [hS.wir1, Ne.symm hwk, hA.fresh]
          · by_cases hdl : d1 ∈ s.sid.live
            · rw [hw' (d1, v) hdl]
              by_cases hd : ((d1, v) : HE) ∈ l
              · have := ((a4' _).1 (Or.inr hd)).2
                simp [hd, Ne.symm hwk, this, Ne.symm hwo]
              · simp [hd, hdl]
            · simp [hdl, hde]
  · rw [hS.wseg]
    simp only [upd, Function.update_apply]
    by_cases hwo : w = ow
    · subst hwo
      simp only [if_true]
      exact ⟨_, rfl, (hA.live _).2 (Or.inr rfl), hwe0⟩
    · by_cases hwk : w = lw
      · subst hwk
        simp only [if_neg hwo, if_true]
        exact ⟨_, rfl, (hA.live _).2 (Or.inr rfl), hS.wir1⟩
      · simp only [if_neg hwo, if_neg hwk]
        obtain ⟨d, g1, g2, g3⟩ := hW.seg w (((hml w).1 hwl).resolve_right hwk) hw0
        refine ⟨d, g1, (hA.live _).2 (Or.inl g2), ?_⟩
        rw [hw' d g2, if_neg, g3]
        intro hd
        have := ((a4' _).1 (Or.inr hd)).2
        rw [g3] at this
        exact hwo (Option.some.inj this)
  · rw [hS.parent]
    simp only [upd, Function.update_apply]
    split
    · simp
    · next hwk => exact hW.par w (((hml w).1 hwl).resolve_right hwk) hw0
  · rw [hS.parent]
    simp only [upd, Function.update_apply]
    split
    · simp
    · exact hW.par ow gal ga0

/-! ### Removing a segment -/

omit [Field K] in
theorem rmWire_wires {s s' : St K} {e w : Id} (hW : Wires s) (hwi : s.wid.Ok) (hD : DelSeg s s' e)
    (hn : ∀ v, s.next (e, v) = some (e, !v)) (h1 : s'.next = s.next) (h2 : s'.wire = s.wire) (h3 : s'.parent = s.parent)
    (h4 : s'.wseg = s.wseg) (hwe : ∀ v, s.wire (e, v) = some w) (hm : s.wid.remove w = .ok s'.wid) : Wires s' := by
  obtain ⟨w', g1, g2, g3⟩ := hW.lab (e, true) hD.was
  obtain rfl : w = w' := Option.some.inj ((hwe true).symm.trans g1)
  obtain ⟨l, hl⟩ := hW.cyc w g2 g3
  obtain ⟨m, m1, m2, m3⟩ := hl.open_ ((hl.mem (e, true)).2 ⟨hD.was, g1⟩) (hn true)
  have hm1 : m = [(e, false)] := by
    cases m with
    | nil => exact absurd m1 (by simp [Path])
    | cons x m =>
      obtain ⟨rfl, y, hy, hp⟩ := m1
      have hy' : y = (e, true) := (Option.some.inj ((hn false).symm.trans hy)).symm
      subst hy'
      cases m with
      | nil => rfl
      | cons z m =>
        have := path_head hp
        subst this
        simp [List.nodup_append] at m2
  subst hm1
  have hwl : ∀ d : HE, d.1 ∈ s.sid.live → s.wire d = some w → d.1 = e := by
    intro d hd hdw
    have := (m3 d).2 ((hl.mem d).2 ⟨hd, hdw⟩)
    simp only [List.mem_append, List.mem_cons, List.not_mem_nil, or_false] at this
    rcases this with rfl | rfl <;> rfl
  have hmw := (Ids.remove_ok hwi hm).2.2.2
  refine ⟨(hmw 0).2 ⟨g3.symm, hW.root⟩, fun d hd => ?_, fun x hx hx0 => ?_, fun x hx hx0 => ?_, fun x hx hx0 => ?_⟩
  · obtain ⟨q1, q2⟩ := (hD.live _).1 hd
    obtain ⟨x, x1, x2, x3⟩ := hW.lab d q2
    refine ⟨x, h2 ▸ x1, (hmw x).2 ⟨?_, x2⟩, x3⟩
    rintro rfl
    exact q1 (hwl d q2 x1)
  · obtain ⟨q1, q2⟩ := (hmw x).1 hx
    obtain ⟨l0, hl0⟩ := hW.cyc x q2 hx0
    refine ⟨l0, hl0.keep (fun d _ => by rw [h1]) (fun d => ?_)⟩
    rw [hD.live, h2]
    refine ⟨fun hh => ⟨hh.1.2, hh.2⟩, fun hh => ⟨⟨?_, hh.1⟩, hh.2⟩⟩
    intro hde
    obtain ⟨d1, v⟩ := d
    dsimp only at hde
    subst hde
    rw [hwe v] at hh
    exact q1 (Option.some.inj hh.2).symm
  · obtain ⟨q1, q2⟩ := (hmw x).1 hx
    obtain ⟨d, d1, d2, d3⟩ := hW.seg x q2 hx0
    refine ⟨d, h4 ▸ d1, (hD.live _).2 ⟨?_, d2⟩, h2 ▸ d3⟩
    intro hde
    obtain ⟨d1, v⟩ := d
    dsimp only at hde
    subst hde
    rw [hwe v] at d3
    exact q1 (Option.some.inj d3).symm
  · rw [h3]
    exact hW.par x ((hmw x).1 hx).2 hx0

omit [Field K] in
theorem rmDendrite_wires {s s' : St K} {e : Id} {tip : Bool} {r : HE} (hW : Wires s) (hD : DelSeg s s' e)
    (ht : s.next (e, tip) = some (e, !tip)) (hr : s.next (e, !tip) ≠ some (e, tip))
    (h2 : s'.wire = s.wire) (h3 : s'.wid = s.wid) (h4 : s'.parent = s.parent) (r1 : r.1 ≠ e)
    (r2 : r.1 ∈ s.sid.live) (r3 : s.next r = some (e, tip)) (r4 : s'.next r = s.next (e, !tip))
    (r5 : ∀ d : HE, d.1 ≠ e → d ≠ r → s'.next d = s.next d) (hs : WsegKept s s' e s.wire s.wseg) : Wires s' := by
  obtain ⟨w0, g1, g2, g3⟩ := hW.lab (e, !tip) hD.was
  obtain ⟨l, hl⟩ := hW.cyc w0 g2 g3
  have hnw := hW.next_wire (x := (e, tip)) hD.was ht
  have gt : s.wire (e, tip) = some w0 := hnw.2.symm.trans g1
  have hwe : ∀ v, s.wire (e, v) = some w0 := by
    intro v
    by_cases hv : v = tip
    · rw [hv]; exact gt
    · have : v = !tip := by cases v <;> cases tip <;> simp_all
      rw [this]; exact g1
  have gr : s.wire r = some w0 := (hW.next_wire r2 r3).2.symm.trans gt
  have hel := (hl.mem (e, !tip)).2 ⟨hD.was, g1⟩
  obtain ⟨a, ha⟩ := hl.path
  obtain ⟨x, hx, hnx⟩ := path_succ ha hel
  obtain ⟨m, m1, m2, m3⟩ := hl.open_ hel hnx
  have htm : (e, tip) ∈ m := by
    have := (m3 (e, tip)).2 ((hl.mem _).2 ⟨hD.was, gt⟩)
    rw [List.mem_append, List.mem_singleton] at this
    exact this.resolve_right (by simp)
  have hmne : m ≠ [] := List.ne_nil_of_mem htm
  obtain ⟨n, y, rfl⟩ : ∃ n y, m = n ++ [y] := ⟨_, _, (List.dropLast_append_getLast hmne).symm⟩
  have hmem : ∀ d, d ∈ n ++ [y] → d ∈ l := fun d hd => (m3 d).1 (by simp only [List.mem_append] at hd ⊢; tauto)
  have hy : y = (e, tip) := path_inj ha hl.nd (hmem y (by simp)) ((hl.mem _).2 ⟨hD.was, gt⟩) (path_last m1) ht
  subst hy
  rw [path_append] at m1
  obtain ⟨c, p1, p2⟩ := m1
  obtain rfl := path_head p2
  have hnne : n ≠ [] := by
    rintro rfl
    have : x = (e, tip) := p1
    exact hr (this ▸ hnx)
  obtain ⟨n', y, rfl⟩ : ∃ n' y, n = n' ++ [y] := ⟨_, _, (List.dropLast_append_getLast hnne).symm⟩
  have hy : y = r := path_inj ha hl.nd (hmem y (by simp)) ((hl.mem _).2 ⟨r2, gr⟩) (path_last p1) r3
  subst hy
  have hnd : (n' ++ [y]).Nodup ∧ ∀ v, (e, v) ∉ n' ++ [y] := by
    have : n' ++ [y] ++ [(e, tip)] ++ [(e, !tip)] = (n' ++ [y]) ++ [(e, tip), (e, !tip)] := by simp
    rw [this, List.nodup_append] at m2
    refine ⟨m2.1, fun v hv => m2.2.2 _ hv _ ?_ rfl⟩
    cases v <;> cases tip <;> simp
  have hpath : Path s'.next x (n' ++ [y]) x := by
    rw [path_append] at p1
    obtain ⟨c, p1, p3⟩ := p1
    obtain rfl := path_head p3
    refine path_snoc (path_congr (fun d hd => r5 d ?_ ?_) p1) (r4.trans hnx)
    · intro hh
      exact hnd.2 d.2 (by rw [← hh]; simp [hd])
    · rintro rfl
      have := hnd.1
      rw [List.nodup_append] at this
      exact this.2.2 _ hd d (by simp) rfl
  have hnm : ∀ d : HE, d ∈ n' ++ [y] ↔ d.1 ≠ e ∧ d ∈ l := by
    intro d
    rw [← m3]
    obtain ⟨d1, v⟩ := d
    constructor
    · intro hd
      refine ⟨?_, by simp only [List.mem_append] at hd ⊢; tauto⟩
      rintro rfl
      exact hnd.2 v hd
    · rintro ⟨hne, hd⟩
      simpa [hne] using hd
  clear p1 p2 m2 m3 hmem
  generalize n' ++ [y] = L at *
  refine ⟨h3 ▸ hW.root, fun d hd => ?_, fun w hw hw0 => ?_, fun w hw hw0 => ?_, fun w hw hw0 => ?_⟩
  · rw [h2, h3]
    exact hW.lab d ((hD.live _).1 hd).2
  · rw [h3] at hw
    by_cases hww : w = w0
    · subst hww
      refine ⟨L, hnne, hnd.1, ⟨x, hpath⟩, fun d => ?_⟩
      rw [hnm, hl.mem, hD.live, h2, and_assoc]
    · obtain ⟨l0, hl0⟩ := hW.cyc w hw hw0
      refine ⟨l0, hl0.keep (fun d hd => ?_) (fun d => ?_)⟩
      · obtain ⟨q1, q2⟩ := (hl0.mem d).1 hd
        refine r5 d (fun hh => hww ?_) (fun hh => hww ?_)
        · obtain ⟨d1, v⟩ := d
          dsimp only at hh
          subst hh
          rw [hwe] at q2
          exact (Option.some.inj q2).symm
        · rw [hh, gr] at q2
          exact (Option.some.inj q2).symm
      · rw [hD.live, h2]
        refine ⟨fun hh => ⟨hh.1.2, hh.2⟩, fun hh => ⟨⟨?_, hh.1⟩, hh.2⟩⟩
        intro hde
        obtain ⟨d1, v⟩ := d
        dsimp only at hde
        subst hde
        rw [hwe v] at hh
        exact hww (Option.some.inj hh.2).symm
  · rw [h3] at hw
    rcases hs w with ⟨k1, k2⟩ | ⟨k, k1, k2, k3, k4⟩
    · obtain ⟨d, d1, d2, d3⟩ := hW.seg w hw hw0
      refine ⟨d, k1.trans d1, (hD.live _).2 ⟨fun hh => ?_, d2⟩, h2 ▸ d3⟩
      obtain ⟨d1', v⟩ := d
      dsimp only at hh
      subst hh
      exact k2 v d3 (k1.trans d1)
    · exact ⟨k, k1, (hD.live _).2 ⟨k3, k4⟩, h2 ▸ k2⟩
  · rw [h4]
    exact hW.par w (h3 ▸ hw) hw0

omit [Field K] in
theorem splitWire_wires {s s' : St K} {e aw bw q : Id} {l : List HE} {bn r0 r1 : HE} (hW : Wires s) (hwi : s.wid.Ok)
    (hS : SplitWire s s' e aw bw q l bn r0 r1) (hn : ∀ v, s.next (e, v) ≠ some (e, !v)) : Wires s' := by
  have hD := hS.del
  have hU := hS.uns
  obtain ⟨k1, k2, k3⟩ := Ids.append_ok hwi
  have hbw : bw ∉ s.wid.live := hS.hbw ▸ k1
  have hb0 : bw ≠ 0 := fun hh => hbw (hh ▸ hW.root)
  have hml : ∀ w, w ∈ s'.wid.live ↔ w ∈ s.wid.live ∨ w = bw := by intro w; rw [hS.wid, k2, hS.hbw]; simp
  obtain ⟨w', g1, gal, ga0⟩ := hW.lab (e, true) hD.was
  obtain rfl : aw = w' := Option.some.inj ((hS.hw true).symm.trans g1)
  have hab : aw ≠ bw := fun hh => hbw (hh ▸ gal)
  obtain ⟨lo, hlo⟩ := hW.cyc aw gal ga0
  obtain ⟨a, ha⟩ := hlo.path
  have hel : ∀ v, (e, v) ∈ lo := fun v => (hlo.mem (e, v)).2 ⟨hD.was, hS.hw v⟩
  obtain ⟨an, _, han⟩ := path_succ ha (hel false)
  obtain ⟨m, p, m2, m3⟩ := hlo.open_ (hel true) hS.hbn
  have hfm : (e, false) ∈ m := by
    have := (m3 (e, false)).2 (hel false)
    rw [List.mem_append, List.mem_singleton] at this
    exact this.resolve_right (by simp)
  obtain ⟨B, A, rfl⟩ := List.append_of_mem hfm
  rw [path_append] at p
  obtain ⟨c, p1, rfl, y, p2, p3⟩ := p
  obtain rfl : an = y := Option.some.inj (han.symm.trans p2)
  have hBne : B ≠ [] := by
    rintro rfl
    have : bn = (e, false) := p1
    exact hn true (this ▸ hS.hbn)
  have hAne : A ≠ [] := by
    rintro rfl
    have : an = (e, true) := p3
    exact hn false (this ▸ han)
  have hmem : ∀ d : HE, (d ∈ B ∨ d ∈ A ∨ d.1 = e) ↔ d ∈ lo := by
    intro d
    rw [← m3]
    obtain ⟨d1, v⟩ := d
    simp only [List.mem_append, List.mem_cons, List.not_mem_nil, or_false, Prod.mk.injEq]
    cases v <;> simp <;> tauto
  have hnd : B.Nodup ∧ A.Nodup ∧ (∀ d, d ∈ B → d ∈ A → False) ∧ (∀ v, (e, v) ∉ B) ∧ ∀ v, (e, v) ∉ A := by
    have : B ++ (e, false) :: A ++ [(e, true)] = B ++ ((e, false) :: (A ++ [(e, true)])) := by simp
    rw [this, List.nodup_append, List.nodup_cons, List.nodup_append] at m2
    obtain ⟨z1, ⟨z2, z3, _, z4⟩, z5⟩ := m2
    refine ⟨z1, z3, fun d h1 h2 => z5 d h1 d (by simp [h2]) rfl, fun v hv => z5 _ hv (e, v) (by cases v <;> simp) rfl, fun v hv => ?_⟩
    cases v
    · exact z2 (by simp [hv])
    · exact z4 _ hv _ (by simp) rfl
  obtain ⟨n1, n2, n3, n4, n5⟩ := hnd
  have gr0 : s.wire r0 = some aw := (hW.next_wire hU.l0 hU.p0).2.symm.trans (hS.hw true)
  have gr1 : s.wire r1 = some aw := (hW.next_wire hU.l1 hU.p1).2.symm.trans (hS.hw false)
  have hBp : Path s'.next bn B bn := by
    obtain ⟨n', y, rfl⟩ : ∃ n' y, B = n' ++ [y] := ⟨_, _, (List.dropLast_append_getLast hBne).symm⟩
    have hy : y = r1 := path_inj ha hlo.nd ((hmem y).1 (Or.inl (by simp))) ((hlo.mem _).2 ⟨hU.l1, gr1⟩) (path_last p1) hU.p1
    subst hy
    rw [path_append] at p1
    obtain ⟨c, p1, p4⟩ := p1
    obtain rfl := path_head p4
    rw [List.nodup_append] at n1
    refine path_snoc (path_congr (fun d hd => hU.other d ?_ ?_ ?_) p1) (hU.q1.trans hS.hbn)
    · rintro rfl
      exact n4 d.2 (by simp [hd])
    · rintro rfl
      obtain ⟨n', y, rfl⟩ : ∃ n' y, A = n' ++ [y] := ⟨_, _, (List.dropLast_append_getLast hAne).symm⟩
      have hy : y = d := path_inj ha hlo.nd ((hmem y).1 (Or.inr (Or.inl (by simp)))) ((hlo.mem _).2 ⟨hU.l0, gr0⟩) (path_last p3) hU.p0
      subst hy
      exact n3 y (by simp [hd]) (by simp)
    · rintro rfl
      exact n1.2.2 _ hd d (by simp) rfl
  have hAp : Path s'.next an A an := by
    obtain ⟨n', y, rfl⟩ : ∃ n' y, A = n' ++ [y] := ⟨_, _, (List.dropLast_append_getLast hAne).symm⟩
    have hy : y = r0 := path_inj ha hlo.nd ((hmem y).1 (Or.inr (Or.inl (by simp)))) ((hlo.mem _).2 ⟨hU.l0, gr0⟩) (path_last p3) hU.p0
    subst hy
    rw [path_append] at p3
    obtain ⟨c, p3, p4⟩ := p3
    obtain rfl := path_head p4
    rw [List.nodup_append] at n2
    refine path_snoc (path_congr (fun d hd => hU.other d ?_ ?_ ?_) p3) (hU.q0.trans han)
    · rintro rfl
      exact n5 d.2 (by simp [hd])
    · rintro rfl
      exact n2.2.2 _ hd d (by simp) rfl
    · rintro rfl
      obtain ⟨n', y, rfl⟩ : ∃ n' y, B = n' ++ [y] := ⟨_, _, (List.dropLast_append_getLast hBne).symm⟩
      have hy : y = d := path_inj ha hlo.nd ((hmem y).1 (Or.inl (by simp))) ((hlo.mem _).2 ⟨hU.l1, gr1⟩) (path_last p1) hU.p1
      subst hy
      exact n3 y (by simp) (by simp [hd])
  have hlB : l = B := by
    obtain ⟨_, l1, l2, l3⟩ := hS.walk.resolve_left (fun hh => hW.par aw gal ga0 hh.1)
    exact path_first l1 p1 l2 hBne l3 (fun hh => n4 _ (List.mem_of_mem_tail hh))
  subst hlB
  have hwl' : ∀ d : HE, d.1 ∈ s.sid.live → s.wire d ≠ some bw := by
    intro d hd hh
    obtain ⟨w, g1, g2, _⟩ := hW.lab d hd
    rw [g1] at hh
    exact hbw (Option.some.inj hh ▸ g2)
  have hmem' : ∀ d : HE, (d ∈ l ∨ d ∈ A ∨ d.1 = e) ↔ d.1 ∈ s.sid.live ∧ s.wire d = some aw := fun d => (hmem d).trans (hlo.mem d)
  refine ⟨(hml 0).2 (Or.inl hW.root), fun d hd => ?_, fun w hwl hw0 => ?_, fun w hwl hw0 => ?_, fun w hwl hw0 => ?_⟩
  · rw [hS.wir]
    split
    · exact ⟨bw, rfl, (hml _).2 (Or.inr rfl), hb0⟩
    · obtain ⟨w, g1, g2, g3⟩ := hW.lab d ((hD.live _).1 hd).2
      exact ⟨w, g1, (hml _).2 (Or.inl g2), g3⟩
  · by_cases hwb : w = bw
    · subst hwb
      refine ⟨l, hBne, n1, ⟨bn, hBp⟩, fun d => ?_⟩
      rw [hD.live, hS.wir]
      obtain ⟨d1, v⟩ := d
      by_cases hd : ((d1, v) : HE) ∈ l
      · simp only [hd, if_true, true_iff, and_true]
        exact ⟨fun hh => n4 v (hh ▸ hd), ((hmem' _).1 (Or.inl hd)).1⟩
      · simp only [hd, if_false, false_iff]
        exact fun hh => hwl' _ hh.1.2 hh.2
    · have hwl := ((hml w).1 hwl).resolve_right hwb
      by_cases hwa : w = aw
      · subst hwa
        refine ⟨A, hAne, n2, ⟨an, hAp⟩, fun d => ?_⟩
        rw [hD.live, hS.wir]
        obtain ⟨d1, v⟩ := d
        by_cases hd : ((d1, v) : HE) ∈ l
        · simp only [hd, if_true, Option.some.injEq]
          exact ⟨fun hh => (n3 _ hd hh).elim, fun hh => absurd hh.2.symm hab⟩
        · simp only [hd, if_false]
          constructor
          · intro hh
            have := (hmem' (d1, v)).1 (Or.inr (Or.inl hh))
            exact ⟨⟨fun h => n5 v (h ▸ hh), this.1⟩, this.2⟩
          · rintro ⟨⟨h1, h2⟩, h3⟩
            exact (((hmem' (d1, v)).2 ⟨h2, h3⟩).resolve_left hd).resolve_right h1
      · obtain ⟨l0, hl0⟩ := hW.cyc w hwl hw0
        refine ⟨l0, hl0.keep (fun d hd => ?_) (fun d => ?_)⟩
        · obtain ⟨q1, q2⟩ := (hl0.mem d).1 hd
          refine hU.other d (fun hh => hwa ?_) (fun hh => hwa ?_) (fun hh => hwa ?_)
          · obtain ⟨d1, v⟩ := d
            dsimp only at hh
            subst hh
            rw [hS.hw] at q2
            exact (Option.some.inj q2).symm
          · rw [hh, gr0] at q2; exact (Option.some.inj q2).symm
          · rw [hh, gr1] at q2; exact (Option.some.inj q2).symm
        · rw [hD.live, hS.wir]
          have h1 := hmem' d
          by_cases hd : d ∈ l
          · have := (h1.1 (Or.inl hd)).2
            simp [hd, this, Ne.symm hwb, Ne.symm hwa]
          · simp only [hd, if_false]
            refine ⟨fun hh => ⟨hh.1.2, hh.2⟩, fun hh => ⟨⟨?_, hh.1⟩, hh.2⟩⟩
            intro hde
            have := (h1.1 (Or.inr (Or.inr hde))).2
            rw [hh.2] at this
            exact hwa (Option.some.inj this)
  · rcases hS.wseg w with ⟨k1, k2⟩ | ⟨k, k1, k2, k3, k4⟩
    · simp only [upd, Function.update_apply] at k1
      by_cases hwb : w = bw
      · subst hwb
        rw [if_pos rfl] at k1
        have hbl : bn ∈ l := by
          cases l with
          | nil => exact absurd rfl hBne
          | cons x l => rw [path_head p1]; simp
        refine ⟨bn, k1, (hD.live _).2 ⟨?_, ((hmem' _).1 (Or.inl hbl)).1⟩, by rw [hS.wir, if_pos hbl]⟩
        intro hh
        exact n4 bn.2 (by rw [← hh]; exact hbl)
      · rw [if_neg hwb] at k1
        by_cases hwa : w = aw
        · subst hwa
          rw [if_pos rfl, han] at k1
          have hal : an ∈ A := by
            cases A with
            | nil => exact absurd rfl hAne
            | cons x l => rw [path_head p3]; simp
          have hal' : an ∉ l := fun hh => n3 an hh hal
          have := (hmem' _).1 (Or.inr (Or.inl hal))
          refine ⟨an, k1, (hD.live _).2 ⟨?_, this.1⟩, by rw [hS.wir, if_neg hal']; exact this.2⟩
          intro hh
          exact n5 an.2 (by rw [← hh]; exact hal)
        · rw [if_neg hwa] at k1
          obtain ⟨d, d1, d2, d3⟩ := hW.seg w (((hml w).1 hwl).resolve_right hwb) hw0
          have hno : ∀ x, d = x → ¬ (x.1 ∈ s.sid.live ∧ s.wire x = some aw) := by
            rintro x rfl ⟨_, hh⟩
            rw [d3] at hh
            exact hwa (Option.some.inj hh)
          refine ⟨d, k1.trans d1, (hD.live _).2 ⟨fun hh => ?_, d2⟩, ?_⟩
          · exact hno d rfl ((hmem' d).1 (Or.inr (Or.inr hh)))
          · rw [hS.wir, if_neg (fun hh => hno d rfl ((hmem' d).1 (Or.inl hh)))]
            exact d3
    · exact ⟨k, k1, (hD.live _).2 ⟨k3, k4⟩, k2⟩
  · refine hS.par (hW.par aw gal ga0) w ?_
    by_cases hwb : w = bw
    · exact Or.inr hwb
    · exact Or.inl (hW.par w (((hml w).1 hwl).resolve_right hwb) hw0)

/-- If a wire on one side of the segment is nested in the wire on the other side, it bounds its polygon from outside. -/
def DelOk (s : St K) (e : Id) : Prop :=
  ∀ v w w' q, s.wire (e, v) = some w → s.wire (e, !v) = some w' → w ≠ w' → s.wpoly w = some q → s.parent w = some w' →
    w = s.outer q

omit [Field K] in
theorem joinPoly_wires {s s' : St K} {e lw rw lq rq q q' keep rm : Id} {l : List HE} {r0 r1 : HE} (hW : Wires s)
    (hwi : s.wid.Ok) (hS : JoinPoly s s' e lw rw lq rq q q' keep rm l r0 r1)
    (hn : ∀ v, s.next (e, v) ≠ some (e, !v)) (hne : lw ≠ rw) (hok : DelOk s e) : Wires s' := by
  have hD := hS.del
  have hU := hS.uns
  obtain ⟨w', g1, gal, ga0⟩ := hW.lab (e, true) hD.was
  obtain rfl : lw = w' := Option.some.inj (hS.hlw.symm.trans g1)
  obtain ⟨w', g2, gbl, gb0⟩ := hW.lab (e, false) hD.was
  obtain rfl : rw = w' := Option.some.inj (hS.hrw.symm.trans g2)
  have hk : (keep = rw ∧ rm = lw) ∨ (keep = lw ∧ rm = rw) := by
    rcases hS.kind with ⟨_, k1, k2, _, k3, k4⟩ | ⟨k1, _, k3, k4⟩ | ⟨k1, _, k3, k4⟩
    · exact Or.inl ⟨k4, by rw [hS.hrm, k3, ← k1]⟩
    · refine Or.inl ⟨k4, ?_⟩
      rw [hS.hrm, k3]
      exact (hok true lw rw lq g1 g2 hne hS.hlq k1).symm
    · refine Or.inr ⟨k4, ?_⟩
      rw [hS.hrm, k3]
      exact (hok false rw lw rq g2 g1 hne.symm hS.hrq k1).symm
  obtain ⟨la, hla⟩ := hW.cyc lw gal ga0
  obtain ⟨lb, hlb⟩ := hW.cyc rw gbl gb0
  obtain ⟨a, ha⟩ := hla.path
  obtain ⟨b, hb⟩ := hlb.path
  have hea := (hla.mem (e, true)).2 ⟨hD.was, g1⟩
  have heb := (hlb.mem (e, false)).2 ⟨hD.was, g2⟩
  obtain ⟨bn, _, hbn⟩ := path_succ ha hea
  obtain ⟨an, _, han⟩ := path_succ hb heb
  obtain ⟨A, p1, a2, a3⟩ := hla.open_ hea hbn
  obtain ⟨B, p2, b2, b3⟩ := hlb.open_ heb han
  have gr0 : s.wire r0 = some lw := (hW.next_wire hU.l0 hU.p0).2.symm.trans g1
  have gr1 : s.wire r1 = some rw := (hW.next_wire hU.l1 hU.p1).2.symm.trans g2
  have hdj : ∀ d : HE, s.wire d = some lw → s.wire d = some rw → False := by
    intro d h1 h2
    rw [h1] at h2
    exact hne (Option.some.inj h2)
  have a4 : ∀ d, d ∈ A ++ [(e, true)] ↔ d.1 ∈ s.sid.live ∧ s.wire d = some lw := fun d => (a3 d).trans (hla.mem d)
  have b4 : ∀ d, d ∈ B ++ [(e, false)] ↔ d.1 ∈ s.sid.live ∧ s.wire d = some rw := fun d => (b3 d).trans (hlb.mem d)
  have hAt : (e, true) ∉ A := by
    intro hh
    rw [List.nodup_append] at a2
    exact a2.2.2 _ hh _ (by simp) rfl
  have hBf : (e, false) ∉ B := by
    intro hh
    rw [List.nodup_append] at b2
    exact b2.2.2 _ hh _ (by simp) rfl
  have a5 : ∀ d : HE, d ∈ A ↔ d.1 ≠ e ∧ d.1 ∈ s.sid.live ∧ s.wire d = some lw := by
    intro d
    rw [← a4]
    obtain ⟨d1, v⟩ := d
    constructor
    · intro hd
      refine ⟨?_, by simp [hd]⟩
      rintro rfl
      cases v
      · exact hdj _ ((a4 _).1 (by simp [hd])).2 g2
      · exact hAt hd
    · rintro ⟨h1, h2⟩
      simpa [h1] using h2
  have b5 : ∀ d : HE, d ∈ B ↔ d.1 ≠ e ∧ d.1 ∈ s.sid.live ∧ s.wire d = some rw := by
    intro d
    rw [← b4]
    obtain ⟨d1, v⟩ := d
    constructor
    · intro hd
      refine ⟨?_, by simp [hd]⟩
      rintro rfl
      cases v
      · exact hBf hd
      · exact hdj _ g1 ((b4 _).1 (by simp [hd])).2
    · rintro ⟨h1, h2⟩
      simpa [h1] using h2
  have hAn : A.Nodup := (List.nodup_append.1 a2).1
  have hBn : B.Nodup := (List.nodup_append.1 b2).1
  have hr0A : r0 ∈ A := (a5 r0).2 ⟨hU.n0, hU.l0, gr0⟩
  have hr1B : r1 ∈ B := (b5 r1).2 ⟨hU.n1, hU.l1, gr1⟩
  have hAne : A ≠ [] := List.ne_nil_of_mem hr0A
  have hBne : B ≠ [] := List.ne_nil_of_mem hr1B
  have hAp : Path s'.next bn A an := by
    obtain ⟨n', y, rfl⟩ : ∃ n' y, A = n' ++ [y] := ⟨_, _, (List.dropLast_append_getLast hAne).symm⟩
    have hy : y = r0 := path_inj ha hla.nd ((hla.mem y).2 ((a5 y).1 (by simp)).2) ((hla.mem _).2 ⟨hU.l0, gr0⟩) (path_last p1) hU.p0
    subst hy
    rw [path_append] at p1
    obtain ⟨c, p1, p4⟩ := p1
    obtain rfl := path_head p4
    rw [List.nodup_append] at hAn
    refine path_snoc (path_congr (fun d hd => hU.other d ?_ ?_ ?_) p1) (hU.q0.trans han)
    · exact ((a5 d).1 (by simp [hd])).1
    · rintro rfl
      exact hAn.2.2 _ hd d (by simp) rfl
    · rintro rfl
      exact hdj d ((a5 d).1 (by simp [hd])).2.2 gr1
  have hBp : Path s'.next an B bn := by
    obtain ⟨n', y, rfl⟩ : ∃ n' y, B = n' ++ [y] := ⟨_, _, (List.dropLast_append_getLast hBne).symm⟩
    have hy : y = r1 := path_inj hb hlb.nd ((hlb.mem y).2 ((b5 y).1 (by simp)).2) ((hlb.mem _).2 ⟨hU.l1, gr1⟩) (path_last p2) hU.p1
    subst hy
    rw [path_append] at p2
    obtain ⟨c, p2, p4⟩ := p2
    obtain rfl := path_head p4
    rw [List.nodup_append] at hBn
    refine path_snoc (path_congr (fun d hd => hU.other d ?_ ?_ ?_) p2) (hU.q1.trans hbn)
    · exact ((b5 d).1 (by simp [hd])).1
    · rintro rfl
      exact hdj d gr0 ((b5 d).1 (by simp [hd])).2.2
    · rintro rfl
      exact hBn.2.2 _ hd d (by simp) rfl
  have hrl : rm ∈ s.wid.live ∧ rm ≠ 0 ∧ keep ∈ s.wid.live ∧ keep ≠ 0 ∧ keep ≠ rm := by
    rcases hk with ⟨rfl, rfl⟩ | ⟨rfl, rfl⟩
    · exact ⟨gal, ga0, gbl, gb0, hne.symm⟩
    · exact ⟨gbl, gb0, gal, ga0, hne⟩
  have hll : ∀ d, d ∈ l ↔ d.1 ∈ s.sid.live ∧ s.wire d = some rm := by
    obtain ⟨lr, hlr⟩ := hW.cyc rm hrl.1 hrl.2.1
    obtain ⟨x, k1, k2, k3, k4⟩ := hS.walk
    obtain ⟨x', j1, j2, j3⟩ := hW.seg rm hrl.1 hrl.2.1
    obtain rfl : x = x' := Option.some.inj (k1.symm.trans j1)
    obtain ⟨c, hc⟩ := hlr.path
    obtain ⟨l', i1, i2, i3⟩ := path_from hc hlr.nd ((hlr.mem x).2 ⟨j2, j3⟩)
    have := path_first k2 i1 k3 (by simp) k4 (List.nodup_cons.1 i3).1
    subst this
    intro d
    rw [i2.mem_iff, hlr.mem]
  have hw' : ∀ d : HE, d.1 ∈ s.sid.live → s'.wire d = if s.wire d = some rm then some keep else s.wire d := by
    intro d hd
    rw [hS.wir]
    simp only [hll, hd, true_and]
  have hmw : ∀ w, w ∈ s'.wid.live ↔ w ≠ rm ∧ w ∈ s.wid.live := (Ids.remove_ok hwi hS.wid).2.2.2
  refine ⟨(hmw 0).2 ⟨hrl.2.1.symm, hW.root⟩, fun d hd => ?_, fun w hwl hw0 => ?_, fun w hwl hw0 => ?_, fun w hwl hw0 => ?_⟩
  · have hdl := ((hD.live _).1 hd).2
    obtain ⟨w, g1, g2, g3⟩ := hW.lab d hdl
    rw [hw' d hdl, g1]
    by_cases hwr : w = rm
    · subst hwr
      exact ⟨keep, by simp, (hmw _).2 ⟨hrl.2.2.2.2, hrl.2.2.1⟩, hrl.2.2.2.1⟩
    · exact ⟨w, by simp [hwr], (hmw _).2 ⟨hwr, g2⟩, g3⟩
  · obtain ⟨hwr, hwl⟩ := (hmw w).1 hwl
    by_cases hwk : w = keep
    · subst hwk
      refine ⟨A ++ B, by simp [hAne], ?_, ⟨bn, (path_append _ _ _ _ _).2 ⟨an, hAp, hBp⟩⟩, fun d => ?_⟩
      · rw [List.nodup_append]
        refine ⟨hAn, hBn, fun x hx y hy hxy => ?_⟩
        subst hxy
        exact hdj x ((a5 x).1 hx).2.2 ((b5 x).1 hy).2.2
      · rw [List.mem_append, a5, b5, hD.live]
        by_cases hdl : d.1 ∈ s.sid.live
        · rw [hw' d hdl]
          by_cases hr : s.wire d = some rm
          · rw [if_pos hr]
            rcases hk with ⟨rfl, rfl⟩ | ⟨rfl, rfl⟩ <;> simp [hr, hdl, hne, hne.symm]
          · rw [if_neg hr]
            rcases hk with ⟨rfl, rfl⟩ | ⟨rfl, rfl⟩ <;> simp [hr, hdl]
        · simp [hdl]
    · obtain ⟨l0, hl0⟩ := hW.cyc w hwl hw0
      have hwab : w ≠ lw ∧ w ≠ rw := by
        rcases hk with ⟨rfl, rfl⟩ | ⟨rfl, rfl⟩
        · exact ⟨hwr, hwk⟩
        · exact ⟨hwk, hwr⟩
      have hnot : ∀ d : HE, s.wire d = some w → d.1 ≠ e := by
        rintro ⟨d1, v⟩ hh rfl
        cases v
        · rw [g2] at hh; exact hwab.2 (Option.some.inj hh).symm
        · rw [g1] at hh; exact hwab.1 (Option.some.inj hh).symm
      refine ⟨l0, hl0.keep (fun d hd => ?_) (fun d => ?_)⟩
      · obtain ⟨q1, q2⟩ := (hl0.mem d).1 hd
        refine hU.other d (hnot d q2) (fun hh => hwab.1 ?_) (fun hh => hwab.2 ?_)
        · rw [hh, gr0] at q2; exact (Option.some.inj q2).symm
        · rw [hh, gr1] at q2; exact (Option.some.inj q2).symm
      · rw [hD.live]
        by_cases hdl : d.1 ∈ s.sid.live
        · rw [hw' d hdl]
          by_cases hr : s.wire d = some rm
          · rw [if_pos hr, hr]
            simp [Ne.symm hwk, Ne.symm hwr]
          · rw [if_neg hr]
            exact ⟨fun hh => ⟨hh.1.2, hh.2⟩, fun hh => ⟨⟨hnot d hh.2, hh.1⟩, hh.2⟩⟩
        · simp [hdl]
  · obtain ⟨hwr, hwl⟩ := (hmw w).1 hwl
    rcases hS.wseg w with ⟨k1, k2⟩ | ⟨k, k1, k2, k3, k4⟩
    · obtain ⟨d, d1, d2, d3⟩ := hW.seg w hwl hw0
      have hdw : s'.wire d = some w := by
        rw [hw' d d2, d3, if_neg (fun hh => hwr (Option.some.inj hh))]
      refine ⟨d, k1.trans d1, (hD.live _).2 ⟨fun hh => ?_, d2⟩, hdw⟩
      obtain ⟨d1', v⟩ := d
      dsimp only at hh
      subst hh
      exact k2 v hdw (k1.trans d1)
    · exact ⟨k, k1, (hD.live _).2 ⟨k3, k4⟩, k2⟩
  · exact hS.par w (hW.par w ((hmw w).1 hwl).2 hw0)

/-! ### Splitting and joining segments -/

omit [Field K] in
/-- A walk whose steps are replaced by walks. -/
theorem path_flatMap {f g : HE → Option HE} {B : HE → List HE} {hd : HE → HE} {l : List HE} : ∀ {a b : HE},
    (∀ d ∈ l, ∀ z, f d = some z → Path g (hd d) (B d) (hd z)) → Path f a l b → Path g (hd a) (l.flatMap B) (hd b) := by
  induction l with
  | nil => intro a b _ h; exact congrArg hd h
  | cons x l ih =>
    rintro a b h ⟨rfl, y, hy, hp⟩
    rw [List.flatMap_cons, path_append]
    exact ⟨hd y, h a (by simp) y hy, ih (fun d hd => h d (by simp [hd])) hp⟩

theorem splitSegment_wires {s s' : St K} {e n mid : Id} (hW : Wires s) (hS : SplitSeg s s' e n mid) : Wires s' := by
  have hne : ∀ d : HE, d.1 ∈ s.sid.live → d.1 ≠ n := fun d hd hh => hS.fresh (hh ▸ hd)
  have hen : e ≠ n := hne (e, true) hS.was
  have hlab : ∀ d : HE, d.1 ≠ n → s'.wire d = s.wire d := hS.wo
  refine ⟨hS.wid ▸ hW.root, fun d hd => ?_, fun w hw hw0 => ?_, fun w hw hw0 => ?_, fun w hw hw0 => ?_⟩
  · rw [hS.wid]
    obtain ⟨d1, v⟩ := d
    by_cases hdn : d1 = n
    · subst hdn
      rw [hS.wn]
      exact hW.lab (e, v) hS.was
    · rw [hlab _ hdn]
      exact hW.lab _ (((hS.live _).1 hd).resolve_right hdn)
  · rw [hS.wid] at hw
    obtain ⟨l, hl⟩ := hW.cyc w hw hw0
    obtain ⟨a, ha⟩ := hl.path
    have hln : ∀ d ∈ l, d.1 ≠ n := fun d hd => hne d ((hl.mem d).1 hd).1
    let B : HE → List HE := fun d => if d = (e, true) then [(e, true), (n, true)]
      else if d = (e, false) then [(n, false), (e, false)] else [d]
    have hB : ∀ d x, x ∈ B d ↔ x = d ∨ (d.1 = e ∧ x = (n, d.2)) := by
      rintro ⟨d1, v⟩ x
      simp only [B]
      split
      · next h => obtain ⟨rfl, rfl⟩ := Prod.mk.inj h; simp
      · split
        · next h => obtain ⟨rfl, rfl⟩ := Prod.mk.inj h; simp [or_comm]
        · next h1 h2 =>
          have : d1 ≠ e := by
            rintro rfl
            cases v
            · exact h2 rfl
            · exact h1 rfl
          simp [this]
    refine ⟨l.flatMap B, ?_, ?_, ⟨if a = (e, false) then (n, false) else a,
      path_flatMap (hd := fun d => if d = (e, false) then (n, false) else d) (fun d hd z hz => ?_) ha⟩, fun d => ?_⟩
    · obtain ⟨x, hx⟩ := List.exists_mem_of_ne_nil _ hl.ne
      exact List.ne_nil_of_mem (List.mem_flatMap.2 ⟨x, hx, (hB x x).2 (Or.inl rfl)⟩)
    · rw [List.nodup_flatMap]
      refine ⟨fun d hd => ?_, ?_⟩
      · simp only [B]
        split
        · simp [hen]
        · split
          · simp [Ne.symm hen]
          · simp
      · refine List.Pairwise.imp_of_mem (R := (· ≠ ·)) ?_ hl.nd
        intro x y hx hy hxy z hz1 hz2
        rcases (hB x z).1 hz1 with rfl | ⟨h1, rfl⟩ <;> rcases (hB y _).1 hz2 with h2 | ⟨h2, h3⟩
        · exact hxy h2
        · exact hln z hx (by rw [h3])
        · exact hln y hy (by rw [← h2])
        · apply hxy
          obtain ⟨x1, xv⟩ := x
          obtain ⟨y1, yv⟩ := y
          dsimp only at h1 h2 h3
          rw [h1, h2, (Prod.mk.inj h3).2]
    · have hdl := ((hl.mem d).1 hd).1
      simp only [B]
      by_cases h1 : d = (e, true)
      · subst h1
        rw [if_pos rfl, if_neg (by simp)]
        refine ⟨rfl, _, hS.nx1, rfl, _, ?_, rfl⟩
        rw [hS.nb, hz]
        by_cases h2 : z = (e, false)
        · simp [h2]
        · simp [h2]
      · have hdn : s'.next d = some (if z = (e, false) then (n, false) else z) := by
          rw [hS.no d hdl h1, hz]
          by_cases h2 : z = (e, false)
          · simp [h2]
          · simp [h2]
        rw [if_neg h1]
        by_cases h3 : d = (e, false)
        · subst h3
          rw [if_pos rfl, if_pos rfl]
          exact ⟨rfl, _, hS.nx0, rfl, _, hdn, rfl⟩
        · rw [if_neg h3, if_neg h3]
          exact ⟨rfl, _, hdn, rfl⟩
    · rw [List.mem_flatMap, hS.live]
      obtain ⟨d1, v⟩ := d
      by_cases hdn : d1 = n
      · subst hdn
        rw [hS.wn]
        constructor
        · rintro ⟨x, hx, hx'⟩
          rcases (hB x _).1 hx' with rfl | ⟨h1, h2⟩
          · exact absurd rfl (hln _ hx)
          · obtain ⟨x1, xv⟩ := x
            dsimp only at h1 h2
            obtain ⟨_, rfl⟩ := Prod.mk.inj h2
            rw [← h1]
            exact ⟨Or.inr rfl, ((hl.mem _).1 hx).2⟩
        · rintro ⟨_, h⟩
          exact ⟨(e, v), (hl.mem _).2 ⟨hS.was, h⟩, (hB _ _).2 (Or.inr ⟨rfl, rfl⟩)⟩
      · rw [hlab _ hdn]
        constructor
        · rintro ⟨x, hx, hx'⟩
          rcases (hB x _).1 hx' with rfl | ⟨h1, h2⟩
          · exact ⟨Or.inl ((hl.mem _).1 hx).1, ((hl.mem _).1 hx).2⟩
          · exact absurd (Prod.mk.inj h2).1 hdn
        · rintro ⟨h1, h2⟩
          exact ⟨(d1, v), (hl.mem _).2 ⟨h1.resolve_right hdn, h2⟩, (hB _ _).2 (Or.inl rfl)⟩
  · rw [hS.wid] at hw
    obtain ⟨d, d1, d2, d3⟩ := hW.seg w hw hw0
    exact ⟨d, hS.wseg ▸ d1, (hS.live _).2 (Or.inl d2), by rw [hlab d (hne d d2)]; exact d3⟩
  · rw [hS.parent]
    exact hW.par w (hS.wid ▸ hw) hw0

omit [Field K] in
theorem joinSegments_label {s s' : St K} {x y : HE} (hW : Wires s) (hS : JoinSeg s s' x y) (hy : y.1 ∈ s.sid.live) :
    s'.wire = s.wire := by
  have w1 := (hW.next_wire hS.was hS.nx).2
  have w2 := (hW.next_wire (x := flip y) hy hS.ny).2
  funext d
  by_cases hd : d = x
  · subst hd
    rcases hS.wx with h | ⟨h1, h2⟩
    · rw [h, w1]
    · rw [h2]
      have w3 := (hW.next_wire hy h1).2
      obtain ⟨d1, v⟩ := d
      cases v
      · rfl
      · have : flip ((d1, true) : HE) = (d1, false) := rfl
        rw [this] at w2
        dsimp only
        rw [w2, w3, w1]
  · exact hS.wo d hd

omit [Field K] in
theorem joinSegments_wires {s s' : St K} {x y : HE} (hW : Wires s) (hL : Links s ∅ ∅) (hS : JoinSeg s s' x y)
    (hy : y.1 ∈ s.sid.live) (hal : x.2 = y.2) : Wires s' := by
  have hwire := joinSegments_label hW hS hy
  have w1 := (hW.next_wire hS.was hS.nx).2
  have w2 := (hW.next_wire (x := flip y) hy hS.ny).2
  have hwv : ∀ v, s.wire (x.1, v) = s.wire (y.1, v) := by
    obtain ⟨x1, xv⟩ := x
    obtain ⟨y1, yv⟩ := y
    dsimp only at hal w1 w2 ⊢
    subst hal
    intro v
    by_cases hv : v = xv
    · rw [hv]; exact w1.symm
    · have : v = !xv := by cases v <;> cases xv <;> simp_all
      rw [this]; exact w2
  have hfx : flip x ≠ y := fun hh => hS.ne (by have := congrArg Prod.fst hh; exact this)
  have hfy : flip y ≠ y := flip_ne y
  have hxy : x ≠ y := fun hh => hS.ne (congrArg Prod.fst hh)
  have hxfy : x ≠ flip y := fun hh => hS.ne (by have := congrArg Prod.fst hh; exact this)
  have hfxfy : flip x ≠ flip y := fun hh => hS.ne (by have := congrArg Prod.fst hh; exact this)
  have hdy : ∀ d : HE, d.1 ≠ y.1 ↔ d ≠ y ∧ d ≠ flip y := by
    intro d
    constructor
    · intro h
      exact ⟨fun hh => h (congrArg Prod.fst hh), fun hh => h (by have := congrArg Prod.fst hh; exact this)⟩
    · rintro ⟨h1, h2⟩ h3
      obtain ⟨d1, v⟩ := d
      obtain ⟨y1, u⟩ := y
      dsimp only at h3
      subst h3
      by_cases hv : v = u
      · exact h1 (by rw [hv])
      · have : v = !u := by cases v <;> cases u <;> simp_all
        exact h2 (by rw [this]; rfl)
  obtain ⟨zy, hzy, _⟩ := hL.next_ok (d := y) hy (by simp)
  refine ⟨hS.wid ▸ hW.root, fun d hd => ?_, fun w hw hw0 => ?_, fun w hw hw0 => ?_, fun w hw hw0 => ?_⟩
  · rw [hS.wid, hwire]
    exact hW.lab d ((hS.live _).1 hd).2
  · rw [hS.wid] at hw
    obtain ⟨l, hl⟩ := hW.cyc w hw hw0
    obtain ⟨a, ha⟩ := hl.path
    let B : HE → List HE := fun d => if d = y ∨ d = flip y then [] else [d]
    let hd : HE → HE := fun d => if d = y then (if zy = flip y then flip x else zy) else if d = flip y then flip x else d
    have hB : ∀ d z, z ∈ B d ↔ z = d ∧ d ≠ y ∧ d ≠ flip y := by
      intro d z
      simp only [B]
      split
      · next h => simp; tauto
      · next h => simp; tauto
    have hzy' : zy ≠ y := by
      rintro rfl
      obtain ⟨k, hk1, hk2, hk3, _⟩ := hL.next_ok (d := zy) hy (by simp)
      rw [hzy] at hk1
      obtain rfl := Option.some.inj hk1
      exact hL.flip_ne hy hk3
    have hmem : ∀ d, d ∈ l.flatMap B ↔ d.1 ∈ s'.sid.live ∧ s'.wire d = some w := by
      intro d
      rw [List.mem_flatMap, hS.live, hwire, hdy]
      constructor
      · rintro ⟨z, hz, hz'⟩
        obtain ⟨rfl, h1, h2⟩ := (hB _ _).1 hz'
        exact ⟨⟨⟨h1, h2⟩, ((hl.mem d).1 hz).1⟩, ((hl.mem d).1 hz).2⟩
      · rintro ⟨⟨⟨h1, h2⟩, h3⟩, h4⟩
        exact ⟨d, (hl.mem d).2 ⟨h3, h4⟩, (hB _ _).2 ⟨rfl, h1, h2⟩⟩
    refine ⟨l.flatMap B, ?_, ?_, ⟨hd a, path_flatMap (hd := hd) (fun d hdl z hz => ?_) ha⟩, hmem⟩
    · obtain ⟨d, hd⟩ := List.exists_mem_of_ne_nil _ hl.ne
      obtain ⟨q1, q2⟩ := (hl.mem d).1 hd
      have hx' : x.1 ∈ s'.sid.live := (hS.live _).2 ⟨hS.ne, hS.was⟩
      by_cases h1 : d = y
      · subst h1
        exact List.ne_nil_of_mem ((hmem x).2 ⟨hx', by rw [hwire, ← w1]; exact q2⟩)
      · by_cases h2 : d = flip y
        · subst h2
          exact List.ne_nil_of_mem ((hmem (flip x)).2 ⟨hx', by rw [hwire, w2]; exact q2⟩)
        · exact List.ne_nil_of_mem ((hmem d).2 ⟨(hS.live _).2 ⟨(hdy d).2 ⟨h1, h2⟩, q1⟩, by rw [hwire]; exact q2⟩)
    · rw [List.nodup_flatMap]
      refine ⟨fun d _ => ?_, ?_⟩
      · simp only [B]; split <;> simp
      · refine List.Pairwise.imp_of_mem (R := (· ≠ ·)) ?_ hl.nd
        intro u v _ _ huv z hz1 hz2
        exact huv (((hB _ _).1 hz1).1.symm.trans ((hB _ _).1 hz2).1)
    · have hdlive := ((hl.mem d).1 hdl).1
      simp only [B, hd]
      by_cases h1 : d = y
      · subst h1
        obtain rfl : zy = z := Option.some.inj (hzy.symm.trans hz)
        simp only [true_or, if_true, if_neg hzy', Path]
      · by_cases h2 : d = flip y
        · subst h2
          obtain rfl : flip x = z := Option.some.inj (hS.ny.symm.trans hz)
          simp only [or_true, if_true, if_neg hfy, if_neg hfx, if_neg hfxfy, Path]
        · simp only [h1, h2, or_self, if_false]
          by_cases h3 : d = x
          · subst h3
            obtain rfl : y = z := Option.some.inj (hS.nx.symm.trans hz)
            refine ⟨rfl, _, ?_, rfl⟩
            rw [hS.nb, hzy]
            simp only [if_true, Option.some.injEq]
            split <;> rfl
          · refine ⟨rfl, _, ?_, rfl⟩
            rw [hS.no d ((hdy d).2 ⟨h1, h2⟩) hdlive h3, hz]
            have hzne : z ≠ y := by
              rintro rfl
              exact h3 (hL.next_inj hdlive hS.was (by simp) (by simp) (hz.trans hS.nx.symm))
            simp only [if_neg hzne, Option.some.injEq]
            split <;> rfl
  · rw [hS.wid] at hw
    obtain ⟨d, d1, d2, d3⟩ := hW.seg w hw hw0
    rw [hwire]
    rcases hS.wseg w with ⟨k1, k2⟩ | ⟨v, k1, k2, k3⟩
    · refine ⟨d, k1.trans d1, (hS.live _).2 ⟨fun hh => ?_, d2⟩, d3⟩
      obtain ⟨d1', v⟩ := d
      dsimp only at hh
      subst hh
      exact k2 v d3 (k1.trans d1)
    · exact ⟨(x.1, v), k3, (hS.live _).2 ⟨hS.ne, hS.was⟩, by rw [hwv]; exact k1⟩
  · rw [hS.parent]
    exact hW.par w (hS.wid ▸ hw) hw0

end
end Verif.Decomp
