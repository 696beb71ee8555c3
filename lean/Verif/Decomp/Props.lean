import Verif.Decomp.WiresRun

/-! Properties of all runs of the plane decomposition: links, table, counts, wires, and inverse calls. -/
namespace Verif.Decomp

variable {K : Type} [Field K] [LinearOrder K]

/-! ### Links -/

/-- `next` is a permutation of the sides of the existing segments, the next side starts where the previous one ends, and
the segment stored in a point ends there. -/
theorem next_permutation {g : Geom K} {s : St K} (h : Reach g s) :
    (∀ d : HE, d.1 ∈ s.sid.live → ∃ k : HE, s.next d = some k ∧ k.1 ∈ s.sid.live ∧ s.vtx (k.1, !k.2) = s.vtx d) ∧
      (∀ k : HE, k.1 ∈ s.sid.live → ∃ d : HE, d.1 ∈ s.sid.live ∧ s.next d = some k) ∧
      (∀ d d' : HE, d.1 ∈ s.sid.live → d'.1 ∈ s.sid.live → s.next d = s.next d' → d = d') ∧
      (∀ p ∈ s.pid.live, ∀ d : HE, s.pseg p = some d → d.1 ∈ s.sid.live ∧ s.vtx d = p) ∧
      (∀ p ∈ s.pid.live, s.pseg p = none → ∀ d : HE, d.1 ∈ s.sid.live → s.vtx d ≠ p) ∧
      ∀ d : HE, d.1 ∈ s.sid.live → s.vtx d ∈ s.pid.live ∧ s.vtx (d.1, !d.2) ≠ s.vtx d := by
  have hL := h.inv.links
  refine ⟨fun d hd => ?_, fun k hk => ?_, fun d d' hd hd' => ?_, fun p hp d hd => ?_, fun p hp hn => ?_, fun d hd => ?_⟩
  · obtain ⟨k, h1, h2, h3, _⟩ := hL.next_ok hd (by simp)
    exact ⟨k, h1, h2, h3⟩
  · obtain ⟨r, h1, h2, _⟩ := hL.prev_ok hk (by simp)
    exact ⟨r, h2, h1⟩
  · exact hL.next_inj hd hd' (by simp) (by simp)
  · exact hL.pseg_vtx hp (by simp) hd
  · exact hL.no_seg hp (by simp) hn
  · exact ⟨hL.vlive d hd, hL.flip_ne hd⟩

/-- The loop of `Point.segments` lists every segment end at the point exactly once. -/
theorem around_exact {g : Geom K} {s : St K} (h : Reach g s) {d : HE} (hd : d.1 ∈ s.sid.live) :
    ∃ l, around s d = .ok l ∧ l.Nodup ∧ ∀ k : HE, k ∈ l ↔ k.1 ∈ s.sid.live ∧ s.vtx k = s.vtx d := by
  have hL := h.inv.links
  obtain ⟨l, hr, _⟩ := hL.ring _ (hL.vlive d hd)
  obtain ⟨l', h1, _, h3, h4⟩ := around_ring hL.sids hr ((hr.mem d).2 ⟨hd, rfl, by simp⟩)
  refine ⟨_, h1, h4, fun k => ?_⟩
  rw [h3.mem_iff, hr.mem]
  simp

/-- `Segment.previous` inverts `next`. -/
theorem previous_exact {g : Geom K} {s : St K} (h : Reach g s) {d : HE} (hd : d.1 ∈ s.sid.live) :
    ∃ r, previous s d = .ok r ∧ r.1 ∈ s.sid.live ∧ s.next r = some d := by
  have hL := h.inv.links
  obtain ⟨l, hr, _⟩ := hL.ring _ (hL.vlive (flip d) hd)
  obtain ⟨r, h1, h2, h3⟩ := previous_ring hL.sids hr (d := flip d) ((hr.mem _).2 ⟨hd, rfl, by simp⟩)
  rw [flip_flip] at h2 h3
  exact ⟨r, h2, ((hr.mem r).1 h1).1, h3⟩

/-! ### Table of segments -/

/-- The table holds exactly the existing segments, and two points are joined by at most one segment. -/
theorem table_exact {g : Geom K} {s : St K} (h : Reach g s) :
    (∀ a b e, s.table (a, b) = some e ↔ e ∈ s.sid.live ∧ s.vtx (e, false) = a ∧ s.vtx (e, true) = b) ∧
      ∀ e ∈ s.sid.live, ∀ e' ∈ s.sid.live, ∀ u v, s.vtx (e, u) = s.vtx (e', v) → s.vtx (e, !u) = s.vtx (e', !v) → e = e' :=
  ⟨h.inv.tab.exact_, fun _ he _ he' _ _ h1 h2 => h.inv.tab.unique he he' h1 h2⟩

/-- `new_segment` on connected points gives the existing segment and only forgets the last polygon change. -/
theorem newSegment_connected {g : Geom K} {s : St K} (h : Reach g s) {a b e e' : Id} {s' : St K}
    (he : e ∈ s.sid.live) {v : Bool} (ha : s.vtx (e, v) = a) (hb : s.vtx (e, !v) = b)
    (hs : newSegment g a b s = .ok (e', s')) : e' = e ∧ s' = { s with change := .none } := by
  have hI := h.inv
  have hal : a ∈ s.pid.live := ha ▸ hI.links.vlive (e, v) he
  have hbl : b ∈ s.pid.live := hb ▸ hI.links.vlive (e, !v) he
  have hor : s.table (a, b) = some e ∨ s.table (b, a) = some e := by
    cases v
    · exact Or.inl ((hI.tab.exact_ _ _ _).2 ⟨he, ha, hb⟩)
    · exact Or.inr ((hI.tab.exact_ _ _ _).2 ⟨he, hb, ha⟩)
  have hn : ∀ {P : Prop}, s.table (a, b) = none → s.table (b, a) = none → P := by
    intro P t1 t2
    rcases hor with h | h
    · rw [t1] at h; cases h
    · rw [t2] at h; cases h
  cases (newSegment_cases hs hI.links hal hbl).2 with
  | old ho hs' =>
    refine ⟨?_, hs'⟩
    dsimp only at ho
    rcases hor with h1 | h1 <;> rcases ho with h2 | h2
    · exact Option.some.inj (h2.symm.trans h1)
    · have := hI.tab.one a b (by rw [h1]; simp)
      rw [this] at h2; cases h2
    · have := hI.tab.one a b (by rw [h2]; simp)
      rw [this] at h1; cases h1
    · exact Option.some.inj (h2.symm.trans h1)
  | wire t1 t2 => exact hn t1 t2
  | dendrite t1 t2 => exact hn t1 t2
  | join t1 t2 => exact hn t1 t2
  | split t1 t2 => exact hn t1 t2

/-! ### Inverse calls -/

/-- Next side of `d` when the segment `e` is taken away from the ends around the end point of `d`. -/
def unhook (s : St K) (e : Id) (d : HE) : Option HE :=
  match s.next d with
  | none => none
  | some k => if k.1 = e then s.next (k.1, !k.2) else some k

omit [Field K] [LinearOrder K] in
theorem unhook_hit {s : St K} {e : Id} {d : HE} {v : Bool} (h : s.next d = some (e, v)) :
    unhook s e d = s.next (e, !v) := by
  unfold unhook; rw [h]; simp

omit [Field K] [LinearOrder K] in
theorem unhook_miss {s : St K} {e : Id} {d : HE} (h : ∀ v, s.next d ≠ some (e, v)) : unhook s e d = s.next d := by
  unfold unhook
  cases hk : s.next d with
  | none => rfl
  | some k =>
    have : k.1 ≠ e := fun hh => h k.2 (by rw [hk, ← hh])
    simp [this]

omit [LinearOrder K] in
theorem Spliced.unhook {s s' : St K} {e a b : Id} {ia ib : Ins} (h : Spliced s s' e ia ib) (hA : AddSeg s s' e a b)
    (hL : Links s ∅ ∅) (na : s.next ia.1 = some ia.2.1) (nb : s.next ib.1 = some ib.2.1) {d : HE}
    (hd : d.1 ∈ s.sid.live) : Decomp.unhook s' e d = s.next d := by
  by_cases h1 : d = ia.1
  · subst h1; rw [unhook_hit h.pa, na]; exact h.e0
  · by_cases h2 : d = ib.1
    · subst h2; rw [unhook_hit h.pb, nb]; exact h.e1
    · have hde : d.1 ≠ e := fun hh => hA.fresh (hh ▸ hd)
      have h3 := h.other d hde h1 h2
      obtain ⟨k, k1, k2, _⟩ := hL.next_ok hd (by simp)
      rw [unhook_miss, h3]
      intro v hv
      rw [h3, k1] at hv
      exact hA.fresh ((show k.1 = e from congrArg Prod.fst (Option.some.inj hv)) ▸ k2)

/-- Effect of `new_segment` when it makes a segment: the other links are those without it. -/
theorem newSegment_next {g : Geom K} {a b e : Id} {s s' : St K} (hs : newSegment g a b s = .ok (e, s')) (hI : Inv s)
    (ha : a ∈ s.pid.live) (hb : b ∈ s.pid.live) (hf : e ∉ s.sid.live) :
    AddSeg s s' e a b ∧ ∀ d : HE, d.1 ∈ s.sid.live → unhook s' e d = s.next d := by
  have hI0 : Inv (quiet s) := hI.frame rfl rfl rfl rfl rfl rfl rfl rfl rfl rfl
  have hkeep : ∀ d : HE, d.1 ∈ s.sid.live → s'.next d = s.next d → unhook s' e d = s.next d := by
    intro d hd h3
    obtain ⟨k, k1, k2, _⟩ := hI.links.next_ok hd (by simp)
    rw [unhook_miss, h3]
    intro v hv
    rw [h3, k1] at hv
    exact hf ((show k.1 = e from congrArg Prod.fst (Option.some.inj hv)) ▸ k2)
  have hne : ∀ d : HE, d.1 ∈ s.sid.live → d.1 ≠ e := fun d hd hh => hf (hh ▸ hd)
  cases (newSegment_cases hs hI.links ha hb).2 with
  | old ho hs' =>
    rcases ho with h | h
    · exact absurd ((hI.tab.exact_ _ _ _).1 h).1 hf
    · exact absurd ((hI.tab.exact_ _ _ _).1 h).1 hf
  | wire t1 t2 pa pb q qa qb hs =>
    obtain ⟨hA, _, _, _, _, _, _, _, _, _, hn, _⟩ := newWire_eff hs hI0.links ha hb hI0.free pa pb
    exact ⟨hA.base rfl rfl rfl rfl rfl rfl, fun d hd => hkeep d hd (hn d (hne d hd)).2⟩
  | dendrite t1 t2 i root hC pa pb hs =>
    obtain ⟨hA, _, _, _, _, _, _, _, _, _, hn, _, n1, n2, n3⟩ := addDendrite_eff hs hI0.links ha hb hI0.free hC pa
    refine ⟨hA.base rfl rfl rfl rfl rfl rfl, fun d hd => ?_⟩
    by_cases hdi : d = i.1
    · subst hdi
      rw [unhook_hit n2, Bool.not_not, n1]
      exact hC.nxt.symm
    · exact hkeep d hd ((hn d (hne d hd)).2 hdi)
  | join t1 t2 ia ib hCa hCb pa pb _ hs =>
    obtain ⟨hA, _, _, hS, _⟩ := joinWires_eff hs hI0.links ha hb hI0.free hCa hCb
    exact ⟨hA.base rfl rfl rfl rfl rfl rfl, fun d hd => hS.unhook hA hI0.links hCa.nxt hCb.nxt hd⟩
  | split t1 t2 ia ib hCa hCb pa pb _ hs =>
    obtain ⟨ow, lw, q, q', l, s1, s2, s3, hS, hF1, k1, k2, k3⟩ :=
      splitPoly_start hs hI0.links ha hb hI0.free (by simp) hCa hCb
    obtain ⟨_, _, P, C, Q, O, pp, fp, c, rfl⟩ := splitPoly_rest hF1 (by simp) k1 k2 k3
    have hA := hS.add.base (s := s) rfl rfl rfl rfl rfl rfl
    exact ⟨hA.frame rfl rfl rfl rfl rfl rfl,
      fun d hd => hS.splice.unhook hS.add hI0.links hCa.nxt hCb.nxt hd⟩

omit [Field K] [LinearOrder K] in
theorem Unspliced.unhook {s s' : St K} {e : Id} {r0 r1 : HE} (h : Unspliced s s' e r0 r1) (hL : Links s ∅ ∅) {d : HE}
    (hd : d.1 ∈ s.sid.live) (hde : d.1 ≠ e) : s'.next d = Decomp.unhook s e d := by
  by_cases h1 : d = r0
  · subst h1; rw [unhook_hit h.p0]; exact h.q0
  · by_cases h2 : d = r1
    · subst h2; rw [unhook_hit h.p1]; exact h.q1
    · rw [unhook_miss, h.other d hde h1 h2]
      intro v hv
      cases v
      · exact h2 (hL.next_inj hd h.l1 (by simp) (by simp) (hv.trans h.p1.symm))
      · exact h1 (hL.next_inj hd h.l0 (by simp) (by simp) (hv.trans h.p0.symm))

/-- Effect of `delete_segment`: the segment is taken away from the ends around both its points. -/
theorem deleteSegment_next {g : Geom K} {e : Id} {s s' : St K} (hs : deleteSegment g e s = .ok s') (hI : Inv s)
    (he : e ∈ s.sid.live) :
    DelSeg s s' e ∧ ∀ d : HE, d.1 ∈ s.sid.live → d.1 ≠ e → s'.next d = unhook s e d := by
  have hI0 : Inv (quiet s) := hI.frame rfl rfl rfl rfl rfl rfl rfl rfl rfl rfl
  have he0 : e ∈ (quiet s).sid.live := he
  cases deleteSegment_cases hs with
  | wire hn hs =>
    obtain ⟨hD, _, _, _, h2, _⟩ := rmWire_eff hs hI0.links he0 hI0.free (by simp)
    refine ⟨hD.frame rfl rfl rfl rfl rfl rfl rfl rfl rfl rfl rfl rfl, fun d hd hde => ?_⟩
    rw [unhook_miss, h2]; · rfl
    intro v hv
    have := hI.links.next_inj (k := (e, !v)) hd he (by simp) (by simp) (hv.trans (by rw [hn, Bool.not_not]))
    exact hde (by rw [this])
  | dendrite tip ht hr hs =>
    have ht' : (quiet s).next (e, tip) = some (e, !tip) := ht
    have hr' : (quiet s).next (e, !tip) ≠ some (e, tip) := hr
    obtain ⟨hD, _, _, _, _, _, _, _, _, _, _, ⟨r, r1, r2, r3, r4, r5⟩, _⟩ :=
      rmDendrite_eff hs hI0.links he0 hI0.free (by simp) ht' hr'
    refine ⟨hD.frame rfl rfl rfl rfl rfl rfl rfl rfl rfl rfl rfl rfl, fun d hd hde => ?_⟩
    by_cases hdr : d = r
    · subst hdr
      have r3 : s.next d = some (e, tip) := r3
      rw [unhook_hit r3, r4]; rfl
    · rw [unhook_miss, r5 d hde hdr]; · rfl
      intro v hv
      by_cases hvt : v = tip
      · subst hvt
        exact hdr (hI.links.next_inj hd r2 (by simp) (by simp) (hv.trans r3.symm))
      · have : v = !tip := by cases v <;> cases tip <;> simp_all
        subst this
        have := hI.links.next_inj (k := (e, tip)) hd he (by simp) (by simp) (hv.trans ht.symm)
        exact hde (by rw [this])
  | split hn hd hs =>
    have hn : ∀ v, (quiet s).next (e, v) ≠ some (e, !v) := hn
    obtain ⟨_, aw, bw, q, l, bn, r0, r1, hS⟩ :=
      splitWire_eff hs hI0.links he0 hI0.free (by simp) (hn false) (hn true)
    exact ⟨hS.del.frame rfl rfl rfl rfl rfl rfl rfl rfl rfl rfl rfl rfl, fun d hd hde => hS.uns.unhook hI0.links hd hde⟩
  | join hn hd hs =>
    have hn : ∀ v, (quiet s).next (e, v) ≠ some (e, !v) := hn
    obtain ⟨_, lw, rw', lq, rq, q, q', keep, rm, l, r0, r1, hS⟩ :=
      joinPoly_eff hs hI0.links he0 hI0.free (by simp) (by simp) (by simp) (hn false) (hn true)
    exact ⟨hS.del.frame rfl rfl rfl rfl rfl rfl rfl rfl rfl rfl rfl rfl, fun d hd hde => hS.uns.unhook hI0.links hd hde⟩

/-- `delete_segment` after `new_segment` gives back segments, ends, links, table, coordinates and vectors. -/
theorem new_delete {g : Geom K} {s s1 s2 : St K} (h : Reach g s) {a b e : Id} (ha : a ∈ s.pid.live) (hb : b ∈ s.pid.live)
    (h1 : newSegment g a b s = .ok (e, s1)) (hf : e ∉ s.sid.live) (h2 : deleteSegment g e s1 = .ok s2) :
    (∀ j, j ∈ s2.sid.live ↔ j ∈ s.sid.live) ∧
      (∀ d : HE, d.1 ∈ s.sid.live → s2.next d = s.next d ∧ s2.vtx d = s.vtx d ∧ s2.vec d.1 = s.vec d.1) ∧
      s2.table = s.table ∧ s2.xy = s.xy ∧ s2.pid = s.pid ∧ ∀ p ∈ s.pid.live, s2.pseg p = none ↔ s.pseg p = none := by
  have hI := h.inv
  have hI1 := newSegment_inv h1 hI ha hb
  obtain ⟨hA, hN⟩ := newSegment_next h1 hI ha hb hf
  have he : e ∈ s1.sid.live := (hA.live e).2 (Or.inr rfl)
  obtain ⟨hD, hN'⟩ := deleteSegment_next h2 hI1 he
  have hI2 := deleteSegment_inv h2 hI1 he
  have hne : ∀ d : HE, d.1 ∈ s.sid.live → d.1 ≠ e := fun d hd hh => hf (hh ▸ hd)
  have hlive : ∀ j, j ∈ s2.sid.live ↔ j ∈ s.sid.live := by
    intro j
    rw [hD.live, hA.live]
    refine ⟨fun h => h.2.resolve_right h.1, fun h => ⟨fun hh => hf (hh ▸ h), Or.inl h⟩⟩
  have hvtx : ∀ d : HE, d.1 ∈ s.sid.live → s2.vtx d = s.vtx d := fun d hd => by rw [hD.vtx, hA.vo d (hne d hd)]
  have hpid : s2.pid = s.pid := hD.pid.trans hA.pid
  refine ⟨hlive, fun d hd => ⟨?_, hvtx d hd, ?_⟩, ?_, hD.xy.trans hA.xy, hpid, fun p hp => ?_⟩
  · rw [hN' d ((hA.live _).2 (Or.inl hd)) (hne d hd), hN d hd]
  · rw [hD.vec, hA.vec, if_neg (hne d hd)]
  · funext k
    obtain ⟨x, y⟩ := k
    cases ht : s.table (x, y) with
    | some j =>
      obtain ⟨g1, g2, g3⟩ := (hI.tab.exact_ _ _ _).1 ht
      refine (hI2.tab.exact_ _ _ _).2 ⟨(hlive j).2 g1, ?_, ?_⟩
      · rw [hvtx _ g1, g2]
      · rw [hvtx _ g1, g3]
    | none =>
      cases ht2 : s2.table (x, y) with
      | none => rfl
      | some j =>
        obtain ⟨g1, g2, g3⟩ := (hI2.tab.exact_ _ _ _).1 ht2
        have g4 := (hlive j).1 g1
        rw [hvtx _ g4] at g2
        rw [hvtx _ g4] at g3
        rw [(hI.tab.exact_ _ _ _).2 ⟨g4, g2, g3⟩] at ht
        cases ht
  · have k1 := hI2.links.hasSeg (p := p) (hpid ▸ hp)
    have k2 := hI.links.hasSeg hp
    have k3 : HasSeg s2 p ↔ HasSeg s p := by
      constructor
      · rintro ⟨d, d1, d2⟩
        have d3 := (hlive _).1 d1
        exact ⟨d, d3, by rw [← hvtx d d3]; exact d2⟩
      · rintro ⟨d, d1, d2⟩
        exact ⟨d, (hlive _).2 d1, by rw [hvtx d d1]; exact d2⟩
    tauto

omit [Field K] [LinearOrder K] in
theorem Wires.along {s : St K} (h : Wires s) {l : List HE} : ∀ {a b : HE}, Path s.next a l b → (∀ d ∈ l, d.1 ∈ s.sid.live) →
    ∀ d ∈ l, s.wire d = s.wire a := by
  induction l with
  | nil => intro a b _ _ d hd; cases hd
  | cons x l ih =>
    rintro a b ⟨rfl, y, hy, hp⟩ hl d hd
    have h1 := (h.next_wire (hl _ (by simp)) hy).2
    rcases List.mem_cons.1 hd with rfl | hd
    · rfl
    · rw [ih hp (fun d hd => hl d (by simp [hd])) d hd, h1]

omit [Field K] [LinearOrder K] in
/-- Equal links give equal sets of sides with one wire. -/
theorem Wires.same {s s' : St K} (h : Wires s) (h' : Wires s') (hl : ∀ j, j ∈ s'.sid.live ↔ j ∈ s.sid.live)
    (hn : ∀ d : HE, d.1 ∈ s.sid.live → s'.next d = s.next d) {d d' : HE} (hd : d.1 ∈ s.sid.live)
    (hd' : d'.1 ∈ s.sid.live) (hw : s.wire d = s.wire d') : s'.wire d = s'.wire d' := by
  obtain ⟨w, hw1, hw2, hw3⟩ := h.lab d hd
  obtain ⟨l, hc⟩ := h.cyc w hw2 hw3
  obtain ⟨a, ha⟩ := hc.path
  have hlv : ∀ k ∈ l, k.1 ∈ s.sid.live := fun k hk => ((hc.mem k).1 hk).1
  have hp : Path s'.next a l a := path_congr (fun x hx => hn x (hlv x hx)) ha
  have := h'.along hp (fun k hk => (hl _).2 (hlv k hk))
  rw [this d ((hc.mem d).2 ⟨hd, hw1⟩), this d' ((hc.mem d').2 ⟨hd', hw ▸ hw1⟩)]

omit [Field K] [LinearOrder K] in
theorem Wires.count_le {s s' : St K} (h : Wires s) (h' : Wires s') (hi : s.wid.Ok)
    (hl : ∀ j, j ∈ s'.sid.live ↔ j ∈ s.sid.live)
    (hn : ∀ d : HE, d.1 ∈ s.sid.live → s'.next d = s.next d) : s.wid.live.length ≤ s'.wid.live.length := by
  have hn' : ∀ d : HE, d.1 ∈ s'.sid.live → s.next d = s'.next d := fun d hd => (hn d ((hl _).1 hd)).symm
  let f : Id → Id := fun w => if w = 0 then 0 else
    match s.wseg w with
    | none => 0
    | some d => (s'.wire d).getD 0
  have hf : ∀ w ∈ s.wid.live, w ≠ 0 → ∃ d : HE, d.1 ∈ s.sid.live ∧ s.wire d = some w ∧ s'.wire d = some (f w) ∧
      f w ∈ s'.wid.live ∧ f w ≠ 0 := by
    intro w hw h0
    obtain ⟨d, h1, h2, h3⟩ := h.seg w hw h0
    obtain ⟨w', g1, g2, g3⟩ := h'.lab d ((hl _).2 h2)
    have : f w = w' := by simp [f, h0, h1, g1]
    rw [this]
    exact ⟨d, h2, h3, g1, g2, g3⟩
  have hf0 : f 0 = 0 := by simp [f]
  have hnd : (s.wid.live.map f).Nodup := by
    refine List.Nodup.map_on (fun w hw w' hw' hh => ?_) hi.nd
    by_cases h0 : w = 0
    · by_cases h0' : w' = 0
      · rw [h0, h0']
      · obtain ⟨_, _, _, _, _, g5⟩ := hf w' hw' h0'
        rw [← hh, h0, hf0] at g5
        exact absurd rfl g5
    · by_cases h0' : w' = 0
      · obtain ⟨_, _, _, _, _, g5⟩ := hf w hw h0
        rw [hh, h0', hf0] at g5
        exact absurd rfl g5
      · obtain ⟨d, g1, g2, g3, _⟩ := hf w hw h0
        obtain ⟨d', k1, k2, k3, _⟩ := hf w' hw' h0'
        have := h'.same h (fun j => (hl j).symm) hn' ((hl _).2 g1) ((hl _).2 k1) (by rw [g3, k3, hh])
        rw [g2, k2] at this
        exact Option.some.inj this
  have hsub : ∀ x ∈ s.wid.live.map f, x ∈ s'.wid.live := by
    intro x hx
    obtain ⟨w, hw, rfl⟩ := List.mem_map.1 hx
    by_cases h0 : w = 0
    · rw [h0, hf0]; exact h'.root
    · obtain ⟨_, _, _, _, g, _⟩ := hf w hw h0
      exact g
  have := (hnd.subperm hsub).length_le
  simpa using this

/-- In sound runs the inverse call also gives back the grouping of sides into wires and the numbers of wires and polygons. -/
theorem new_delete_wires_partial {g : Geom K} {s s1 s2 : St K} (h : SoundReach g s) {a b e : Id} (ha : a ∈ s.pid.live)
    (hb : b ∈ s.pid.live) (h1 : newSegment g a b s = .ok (e, s1)) (hf : e ∉ s.sid.live)
    (hok : DelOk s1 e) (h2 : deleteSegment g e s1 = .ok s2) :
    (∀ d d' : HE, d.1 ∈ s.sid.live → d'.1 ∈ s.sid.live → (s2.wire d = s2.wire d' ↔ s.wire d = s.wire d')) ∧
      s2.wid.live.length = s.wid.live.length ∧ s2.qid.live.length = s.qid.live.length := by
  have hI := h.reach.inv
  have hI1 := newSegment_inv h1 hI ha hb
  have he : e ∈ s1.sid.live := ((newSegment_next h1 hI ha hb hf).1.live e).2 (Or.inr rfl)
  have hI2 := deleteSegment_inv h2 hI1 he
  have hW := h.wires
  have hW2 := deleteSegment_wires h2 hI1 (newSegment_wires h1 hI hW ha hb) he hok
  obtain ⟨r1, r2, _, _, r3, r4⟩ := new_delete h.reach ha hb h1 hf h2
  have hw : s2.wid.live.length = s.wid.live.length :=
    le_antisymm (hW2.count_le hW hI2.wids (fun j => (r1 j).symm) (fun d hd => ((r2 d ((r1 _).1 hd)).1).symm))
      (hW.count_le hW2 hI.wids r1 (fun d hd => (r2 d hd).1))
  refine ⟨fun d d' hd hd' => ⟨?_, ?_⟩, hw, ?_⟩
  · exact hW2.same hW (fun j => (r1 j).symm) (fun d hd => ((r2 d ((r1 _).1 hd)).1).symm) ((r1 _).2 hd) ((r1 _).2 hd')
  · exact hW.same hW2 r1 (fun d hd => (r2 d hd).1) hd hd'
  · have e1 := hI.euler
    have e2 := hI2.euler
    have e3 : verts s2 = verts s := by
      unfold verts
      rw [r3]
      refine List.countP_congr (fun p hp => ?_)
      have := r4 p hp
      rw [Option.isSome_iff_ne_none, Option.isSome_iff_ne_none]
      tauto
    have e4 : s2.sid.live.length = s.sid.live.length := by
      refine le_antisymm ?_ ?_
      · exact (hI2.links.sids.nd.subperm (fun j hj => (r1 j).1 hj)).length_le
      · exact (hI.links.sids.nd.subperm (fun j hj => (r1 j).2 hj)).length_le
    omega

/-- `join_segments` after `split_segment` gives back segments, ends, links, table, wires and polygons; the point is free
again. -/
theorem split_join {g : Geom K} {s s1 s2 : St K} (h : Reach g s) {e mid n : Id} (he : e ∈ s.sid.live)
    (hm : mid ∈ s.pid.live) (hfree : s.pseg mid = none) (h1 : splitSegment e mid s = .ok (n, s1))
    (h2 : joinSegments mid e n s1 = .ok s2) :
    Joinable s1 mid e n ∧ (∀ j, j ∈ s2.sid.live ↔ j ∈ s.sid.live) ∧
      (∀ d : HE, d.1 ∈ s.sid.live → s2.next d = s.next d ∧ s2.vtx d = s.vtx d) ∧
      s2.table = s.table ∧ s2.xy = s.xy ∧ s2.pid = s.pid ∧ s2.pseg mid = none ∧
      s2.wid = s.wid ∧ s2.qid = s.qid ∧ s2.parent = s.parent ∧ s2.childs = s.childs ∧ s2.wpoly = s.wpoly ∧
      s2.outer = s.outer ∧ (Wires s → ∀ d : HE, d.1 ∈ s.sid.live → s2.wire d = s.wire d) ∧
      (∀ j ∈ s.sid.live, j ≠ e → s2.vec j = s.vec j) ∧
      s2.vec e = ((s.xy mid).1 - (s.xy (s.vtx (e, false))).1, (s.xy mid).2 - (s.xy (s.vtx (e, false))).2) := by
  have hI := h.inv
  have hI1 := splitSegment_inv h1 hI he hm hfree
  obtain ⟨_, _, hS⟩ := splitSegment_eff h1 hI.links he hm hfree hI.free (by simp)
  have hen : e ≠ n := fun hh => hS.fresh (hh ▸ he)
  have hve0 : s1.vtx (e, false) = s.vtx (e, false) := hS.vo _ (by simp) hen
  have hJ : Joinable s1 mid e n := by
    refine ⟨(hS.live e).2 (Or.inl he), (hS.live n).2 (Or.inr rfl), hen, ⟨true, hS.ve⟩, ⟨false, hS.vn0⟩, ?_⟩
    intro v w hv hw j hj u hju
    have hv' : v = false := by
      cases v
      · rfl
      · exact absurd hS.ve hv
    have hw' : w = true := by
      cases w
      · exact absurd hS.vn0 hw
      · rfl
    subst hv' hw'
    rw [hve0, hS.vn1] at hju
    have k1 : j ≠ n := by
      rintro rfl
      cases u
      · exact hS.ne0 (hS.vn0.symm.trans hju.1)
      · exact hS.ne1 (hS.vn0.symm.trans hju.2)
    have k2 : j ≠ e := by
      rintro rfl
      cases u
      · exact hS.ne1 (hS.ve.symm.trans hju.2)
      · exact hS.ne0 (hS.ve.symm.trans hju.1)
    have hjl := ((hS.live j).1 hj).resolve_right k1
    rw [hS.vo _ (fun hh => k2 (congrArg Prod.fst hh)) k1, hS.vo _ (fun hh => k2 (congrArg Prod.fst hh)) k1] at hju
    exact k2 (hI.tab.unique hjl he (u := u) (v := false) hju.1 hju.2)
  have hfar := hJ.far hI1.tab
  obtain ⟨hL2, _, x, y, hx, hy, hxm, hJS, hps⟩ := joinSegments_eff h2 hI1.links hJ.1 hJ.2.1 hen (Or.inr hS.ve)
    (Or.inl hS.vn0) hfar hI1.free (by simp)
  have hI2 := joinSegments_inv h2 hI1 hJ
  have hx' : x = (e, true) := by
    obtain ⟨x1, x2⟩ := x
    dsimp only at hx
    subst hx
    cases x2
    · rw [hve0] at hxm; exact absurd hxm.symm hS.ne0
    · rfl
  subst hx'
  have hy' : y = (n, true) := by
    obtain ⟨y1, y2⟩ := y
    dsimp only at hy
    subst hy
    cases y2
    · have := hJS.mid
      rw [hxm] at this
      exact absurd (this.symm.trans hS.vn1) hS.ne1
    · rfl
  subst hy'
  have hne : ∀ d : HE, d.1 ∈ s.sid.live → d.1 ≠ n := fun d hd hh => hS.fresh (hh ▸ hd)
  have hlive : ∀ j, j ∈ s2.sid.live ↔ j ∈ s.sid.live := by
    intro j
    rw [hJS.live, hS.live]
    exact ⟨fun h => h.2.resolve_right h.1, fun h => ⟨hne (j, true) h, Or.inl h⟩⟩
  have hvtx : ∀ d : HE, d.1 ∈ s.sid.live → s2.vtx d = s.vtx d := by
    intro d hd
    rw [hJS.vtx]
    by_cases hde : d = (e, true)
    · subst hde
      rw [upd, Function.update_self, hS.vn1]
    · rw [upd, Function.update_of_ne hde, hS.vo d hde (hne d hd)]
  have hnot : ∀ d : HE, d.1 ∈ s.sid.live → s.next d ≠ some (n, false) := by
    intro d hd hh
    obtain ⟨k, k1, k2, _⟩ := hI.links.next_ok hd (by simp)
    rw [hh] at k1
    exact hne k k2 (by rw [← Option.some.inj k1])
  have hfl : flip ((n, true) : HE) = (n, false) := rfl
  have hfl' : flip ((e, true) : HE) = (e, false) := rfl
  refine ⟨hJ, hlive, fun d hd => ⟨?_, hvtx d hd⟩, ?_, hJS.xy.trans hS.xy, hJS.pid.trans hS.pid, hps,
    hJS.wid.trans hS.wid, hJS.qid.trans hS.qid, hJS.parent.trans hS.parent, hJS.childs.trans hS.childs,
    hJS.wpoly.trans hS.wpoly, hJS.outer.trans hS.outer, fun hW d hd => ?_, fun j hj hje => ?_, ?_⟩
  · by_cases hde : d = (e, true)
    · subst hde
      rw [hJS.nb, hS.nb, hfl, hfl']
      by_cases ht : s.next (e, true) = some (e, false)
      · rw [if_pos ht, if_pos rfl, ht]
      · rw [if_neg ht, if_neg (hnot _ hd)]
    · rw [hJS.no d (hne d hd) ((hS.live _).2 (Or.inl hd)) hde, hS.no d hd hde, hfl, hfl']
      by_cases ht : s.next d = some (e, false)
      · rw [if_pos ht, if_pos rfl, ht]
      · rw [if_neg ht, if_neg (hnot _ hd)]
  · funext k
    obtain ⟨p, q⟩ := k
    cases ht : s.table (p, q) with
    | some j =>
      obtain ⟨g1, g2, g3⟩ := (hI.tab.exact_ _ _ _).1 ht
      refine (hI2.tab.exact_ _ _ _).2 ⟨(hlive j).2 g1, ?_, ?_⟩
      · rw [hvtx _ g1, g2]
      · rw [hvtx _ g1, g3]
    | none =>
      cases ht2 : s2.table (p, q) with
      | none => rfl
      | some j =>
        obtain ⟨g1, g2, g3⟩ := (hI2.tab.exact_ _ _ _).1 ht2
        have g4 := (hlive j).1 g1
        rw [hvtx _ g4] at g2
        rw [hvtx _ g4] at g3
        rw [(hI.tab.exact_ _ _ _).2 ⟨g4, g2, g3⟩] at ht
        cases ht
  · by_cases hde : d = (e, true)
    · subst hde
      rcases hJS.wx with h3 | ⟨h3, h4⟩
      · rw [h3, hS.wn]
      · rw [h4, hS.wo _ hen]
        rw [hS.nb, hfl] at h3
        by_cases ht : s.next (e, true) = some (e, false)
        · exact (hW.next_wire he ht).2
        · rw [if_neg ht] at h3
          exact absurd h3 (hnot _ hd)
    · rw [hJS.wo d hde, hS.wo d (hne d hd)]
  · rw [hJS.vec, hS.vec, upd, Function.update_of_ne hje, upd, Function.update_of_ne (hne (j, true) hj)]
  · rw [hJS.vec, hS.vec, upd, Function.update_self]

/-- The segment given back by `join_segments` keeps the vector of the shortened segment. -/
theorem split_join_stale_vector {g : Geom K} {s s1 s2 : St K} (h : Reach g s) {e mid n : Id} (he : e ∈ s.sid.live)
    (hm : mid ∈ s.pid.live) (hfree : s.pseg mid = none) (h1 : splitSegment e mid s = .ok (n, s1))
    (h2 : joinSegments mid e n s1 = .ok s2) (hne : s.xy mid ≠ s.xy (s.vtx (e, true))) :
    s2.vec e ≠ ((s2.xy (s2.vtx (e, true))).1 - (s2.xy (s2.vtx (e, false))).1,
      (s2.xy (s2.vtx (e, true))).2 - (s2.xy (s2.vtx (e, false))).2) := by
  obtain ⟨_, _, hv, _, hxy, _, _, _, _, _, _, _, _, _, _, hvec⟩ := split_join h he hm hfree h1 h2
  rw [hvec, hxy, (hv (e, true) he).2, (hv (e, false) he).2]
  intro hh
  have k1 := congrArg Prod.fst hh
  have k2 := congrArg Prod.snd hh
  dsimp only at k1 k2
  exact hne (Prod.ext (sub_left_inj.1 k1) (sub_left_inj.1 k2))

/-! ### Numbers of objects and free points -/

/-- Euler's formula for the plane: the outer polygon is one of the polygons and the root wire one of the wires, so the
number of connected parts is the number of wires without the root, less the number of polygons without the outer one. -/
theorem euler_count {g : Geom K} {s : St K} (h : Reach g s) :
    verts s + 2 * s.qid.live.length = s.sid.live.length + s.wid.live.length + 1 := h.inv.euler

/-- A point without a segment is in some polygon, a point with a segment in none; the sets of free points have no
repetition, and their members are free points of that polygon. -/
theorem free_points {g : Geom K} {s : St K} (h : Reach g s) :
    (∀ p ∈ s.pid.live, (∀ d : HE, d.1 ∈ s.sid.live → s.vtx d ≠ p) ↔ s.ppoly p ≠ none) ∧
      ∀ q, (s.fpts q).Nodup ∧ ∀ p ∈ s.fpts q, p ∈ s.pid.live ∧ s.ppoly p = some q := by
  have hI := h.inv
  refine ⟨fun p hp => ?_, fun q => ⟨hI.free.nd q, hI.free.mem q⟩⟩
  rw [← hI.free.seg p hp]
  have := hI.links.hasSeg hp
  constructor
  · intro h1
    by_contra h2
    obtain ⟨d, h3, h4⟩ := this.1 h2
    exact h1 d h3 h4
  · intro h1 d h3 h4
    exact this.2 ⟨d, h3, h4⟩ h1

/-! ### Wires -/

/-- In sound runs the sides of a wire are one closed walk of `next`, every side belongs to exactly one wire, and the
segment stored in a wire is on it. Missing: runs where a deletion meets a wire nested in the other side's wire without
bounding its polygon, and joins of opposite segments. -/
theorem wires_exact_partial {g : Geom K} {s : St K} (h : SoundReach g s) :
    (∀ d : HE, d.1 ∈ s.sid.live → ∃ w, s.wire d = some w ∧ w ∈ s.wid.live ∧ w ≠ 0) ∧
      (∀ d k : HE, d.1 ∈ s.sid.live → s.next d = some k → s.wire k = s.wire d) ∧
      ∀ w ∈ s.wid.live, w ≠ 0 → ∃ l, wireAll s w = .ok l ∧ l.Nodup ∧ l ≠ [] ∧
        ∀ d : HE, d ∈ l ↔ d.1 ∈ s.sid.live ∧ s.wire d = some w := by
  have hW := h.wires
  have hI := h.reach.inv
  refine ⟨hW.lab, fun d k hd hn => (hW.next_wire hd hn).2, fun w hw h0 => ?_⟩
  obtain ⟨l, hc⟩ := hW.cyc w hw h0
  obtain ⟨d, d1, d2, d3⟩ := hW.seg w hw h0
  obtain ⟨a, ha⟩ := hc.path
  obtain ⟨l', h1, h2, h3⟩ := path_from ha hc.nd ((hc.mem d).2 ⟨d2, d3⟩)
  refine ⟨d :: l', ?_, h3, by simp, fun k => by rw [h2.mem_iff, hc.mem]⟩
  unfold wireAll
  rw [if_neg (hW.par w hw h0), d1]
  simp only [need, bind, Except.bind]
  refine walkGo_ok h1 (by simp) ?_ ?_ ?_
  · simpa using (List.nodup_cons.1 h3).1
  · simpa using (List.nodup_cons.1 h3).1
  · have := length_le_two_mul h3 (fun k hk => hI.links.sids.lt _ ((hc.mem k).1 (h2.mem_iff.1 hk)).1)
    unfold fuel
    omega

/-- Joining opposite segments moves the stored segment of a wire to the wrong side. -/
theorem join_opposite_wrong_side {g : Geom K} {s s' : St K} (h : SoundReach g s) {mid e0 e1 w : Id} {v : Bool}
    (hJ : Joinable s mid e0 e1) {u : Bool} (h0 : s.vtx (e0, u) = mid) (h1 : s.vtx (e1, u) = mid)
    (hw : s.wseg w = some (e1, v)) (hwl : w ∈ s.wid.live) (hw0 : w ≠ 0) (hd : s.wire (e1, true) ≠ s.wire (e1, false))
    (hs : joinSegments mid e0 e1 s = .ok s') :
    s'.wseg w = some (e0, v) ∧ s'.wire (e0, v) ≠ some w := by
  have hW := h.wires
  have hI := h.reach.inv
  obtain ⟨x, y, hx, hy, hxm, hJS⟩ := joinSegments_run hs hI hJ
  have hyl : y.1 ∈ s.sid.live := hy ▸ hJ.2.1
  obtain ⟨d, d1, d2, d3⟩ := hW.seg w hwl hw0
  rw [hw] at d1
  obtain rfl := Option.some.inj d1
  obtain ⟨x1, x2⟩ := x
  obtain ⟨y1, y2⟩ := y
  dsimp only at hx hy
  subst hx hy
  have hxu : x2 = u := by
    by_contra hne
    have : x2 = !u := by cases x2 <;> cases u <;> simp_all
    subst this
    exact hI.links.flip_ne (d := (x1, u)) hJ.1 (hxm.trans h0.symm)
  subst hxu
  have hyu : y2 = !x2 := by
    by_contra hne
    have : y2 = x2 := by cases x2 <;> cases y2 <;> simp_all
    subst this
    have := hJS.mid
    rw [hxm, ← h1] at this
    exact hI.links.flip_ne hyl this
  subst hyu
  have e1 : s.wire (x1, x2) = s.wire (y1, !x2) := ((hW.next_wire hJ.1 hJS.nx).2).symm
  have e2 : s.wire (x1, !x2) = s.wire (y1, x2) := by
    have := (hW.next_wire (x := flip (y1, !x2)) hyl hJS.ny).2
    simpa [flip] using this
  have e3 : s'.wire (x1, x2) = s.wire (x1, x2) := by
    rcases hJS.wx with h3 | ⟨h3, _⟩
    · rw [h3, e1]
    · have := (hW.next_wire hyl h3).2
      exfalso
      apply hd
      cases x2
      · simpa [flip] using this.symm
      · simpa [flip] using this
  have e4 : s'.wire (x1, !x2) = s.wire (x1, !x2) := hJS.wo _ (by simp)
  have e5 : ∀ b, s'.wire (x1, b) = s.wire (y1, !b) := by
    intro b
    by_cases hb : b = x2
    · subst hb; rw [e3, e1]
    · have : b = !x2 := by cases b <;> cases x2 <;> simp_all
      subst this
      rw [e4, e2, Bool.not_not]
  constructor
  · rcases hJS.wseg w with ⟨h3, h4⟩ | ⟨b, h3, h4, h5⟩
    · exact absurd (h3.trans hw) (h4 v d3)
    · rw [hw] at h4
      have : v = b := congrArg Prod.snd (Option.some.inj h4)
      subst this
      exact h5
  · rw [e5]
    intro hh
    apply hd
    cases v
    · exact hh.trans d3.symm
    · exact d3.trans hh.symm

end Verif.Decomp
