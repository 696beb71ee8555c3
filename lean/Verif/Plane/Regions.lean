import Verif.Plane.HolePlaced
import Verif.Decomp.Change

/-! The regions of the polygons after new and removed segments are those that `last_polygon_change` tells. -/

namespace Verif.Decomp
open Verif.Plane

variable {K : Type} [Field K] [LinearOrder K] [IsStrictOrderedRing K] {g : Geom K}

/-- What the change reported when `s` became `s'` says about the polygons that contain the point `x` (polygons.py:258-280):
`split` and `add` divide the first polygon, `join` and `remove` put the polygons together, and the other polygons stay. -/
def Regions (s s' : St K) (x : K × K) : Change → Prop
  | .split q q' | .add q q' =>
    (polyContains s q x = .ok true ↔ polyContains s' q x = .ok true ∨ polyContains s' q' x = .ok true) ∧
      ∀ r ∈ s.qid.live, r ≠ q → polyContains s' r x = polyContains s r x
  | .join q q' | .remove q q' =>
    (polyContains s' q x = .ok true ↔ polyContains s q x = .ok true ∨ polyContains s q' x = .ok true) ∧
      ∀ r ∈ s'.qid.live, r ≠ q → polyContains s' r x = polyContains s r x
  | .none | .shape _ => ∀ r ∈ s.qid.live, polyContains s' r x = polyContains s r x

omit [IsStrictOrderedRing K] in
theorem Sub.off {s t : St K} (h : Sub s t) {x : K × K} (hx : Off t x) : Off s x := fun e he => by
  have := hx e (h.live e he)
  rwa [h.pos (e, false) he, h.pos (e, true) he] at this

theorem same_regions {s s' : St K} (h : Nested s) (h' : Nested s') (hq : s'.qid = s.qid) {x : K × K} {q0 : Id} (h0 : q0 ∈ s.qid.live)
    (he : Exact s x q0) (he' : Exact s' x q0) {r : Id} (hr : r ∈ s.qid.live) : polyContains s' r x = polyContains s r x := by
  rw [polyContains_exact h h0 he hr, polyContains_exact h' (hq ▸ h0) he' (hq ▸ hr)]

/-- The polygon `q` of `c` consists of the polygons `q` and `q'` of `f`. -/
theorem fine_regions {c f : St K} (h : Nested c) (h' : Nested f) {q q' : Id} (q1 : q ∈ c.qid.live) (q2 : q' ∉ c.qid.live)
    (hl : ∀ y, y ∈ f.qid.live ↔ y ∈ c.qid.live ∨ y = q') {x : K × K} {p : Id} (hp : p ∈ f.qid.live) (he : Exact f x p)
    (he' : Exact c x (if p = q' then q else p)) :
    (polyContains c q x = .ok true ↔ polyContains f q x = .ok true ∨ polyContains f q' x = .ok true) ∧
      ∀ r ∈ c.qid.live, r ≠ q → polyContains f r x = polyContains c r x := by
  have hqq : q ≠ q' := fun hh => q2 (hh ▸ q1)
  have hm : (if p = q' then q else p) ∈ c.qid.live := by
    split
    · exact q1
    · next k => exact ((hl p).1 hp).resolve_right k
  have hc : ∀ r ∈ c.qid.live, polyContains c r x = .ok (decide (r = if p = q' then q else p)) := fun r hr => polyContains_exact h hm he' hr
  have hf : ∀ r ∈ f.qid.live, polyContains f r x = .ok (decide (r = p)) := fun r hr => polyContains_exact h' hp he hr
  refine ⟨?_, fun r hr hne => ?_⟩
  · rw [hc q q1, hf q ((hl q).2 (Or.inl q1)), hf q' ((hl q').2 (Or.inr rfl))]
    simp only [Except.ok.injEq, decide_eq_true_eq]
    by_cases k : p = q'
    · simp [k]
    · rw [if_neg k]
      exact ⟨Or.inl, fun hh => hh.resolve_right fun e => k e.symm⟩
  · rw [hc r hr, hf r ((hl r).2 (Or.inl hr))]
    by_cases k : p = q'
    · have : r ≠ q' := fun hh => q2 (hh ▸ hr)
      simp [k, this, hne]
    · rw [if_neg k]

theorem NestSt.noSwap {s : St K} (h : NestSt s) : NoSwap s := fun x hx y _ _ h1 h2 =>
  (h.chain x hx).not_anc h.p0 h1 (.head h2 .refl)

theorem newSegment_regions (hg : ArgOk g) {a b e : Id} {s s' : St K} (hs : newSegment g a b s = .ok (e, s')) (h : Tiled g s)
    (h' : Tiled g s') (ha : a ∈ s.pid.live) (hb : b ∈ s.pid.live) (hnear : Near g s') :
    TrueNew s s' e s'.change ∧ ∀ x, Off s' x → Regions s s' x s'.change := by
  have hN := h.drawn.nested
  have hN' := h'.drawn.nested
  have hT := newSegment_true hs hN ha hb hN'.nest.noSwap
  refine ⟨hT, fun x hx => ?_⟩
  have h0 := h.quiet
  have hN0 := hN.quiet
  have hF : Flat g s' := ⟨h'.drawn.links, hN'.wires, h'.drawn.planar, h'.drawn.fan⟩
  have same : Sub s s' → s'.qid = s.qid → (∀ q, q ∈ s.qid.live → Exact s x q → Exact s' x q) → Regions s s' x s'.change := by
    intro hS hq hE
    obtain ⟨q0, m0, he⟩ := exact_ex h.drawn h.good (hS.off hx)
    have key : ∀ r ∈ s.qid.live, polyContains s' r x = polyContains s r x := fun r hr =>
      same_regions hN hN' hq m0 he (hE q0 m0 he) hr
    cases hc : s'.change with
    | none => exact key
    | shape _ => exact key
    | split q q' => rw [hc] at hT; exact absurd (hq ▸ (hT.2.2.1 q').2 (Or.inr rfl)) hT.2.1
    | add q q' => rw [hc] at hT; exact absurd (hq ▸ (hT.2.2.1 q').2 (Or.inr rfl)) hT.2.1
    | join q q' => rw [hc] at hT; exact hT.elim
    | remove q q' => rw [hc] at hT; exact hT.elim
  obtain ⟨hab, hs⟩ := newSegment_cases hs hN.inv.links ha hb
  cases hs with
  | old _ hs =>
    dsimp only at hs
    subst hs
    exact same ⟨fun _ h => h, fun _ _ => rfl⟩ rfl fun q _ k => k
  | wire t1 t2 pa pb q qa qb hs =>
    have hq := (hN.free.full trivial a ha q qa).1
    obtain ⟨k1, k2⟩ := newWire_good hg hs h0.drawn h0.good h'.drawn ha hb pa pb hq (h0.reg b hb q qb)
    obtain ⟨hA, _, _, _, _, hq2, _⟩ := newWire_eff hs hN0.inv.links ha hb hN0.free pa pb
    exact same ⟨hA.plus.live, hA.plus.pos⟩ hq2 fun q hq => (k2 x q hq).2
  | dendrite t1 t2 i root hC pa pb hs =>
    obtain ⟨k1, k2⟩ := addDendrite_good hg hs h0.drawn h0.good h'.drawn ha hb hC pa
    obtain ⟨hA, _, _, _, _, hq2, _⟩ := addDendrite_eff hs hN0.inv.links ha hb hN0.free hC pa
    exact same ⟨hA.plus.live, hA.plus.pos⟩ hq2 fun q hq => (k2 x q).2
  | join t1 t2 ia ib hCa hCb pa pb _ hs =>
    obtain ⟨k1, k2⟩ := joinWires_good hg hs h0.drawn h0.good h'.drawn ha hb hCa hCb
    have hA := (joinWires_parts hs hN0 hN'.wires ha hb hCa hCb).1
    exact same ⟨hA.plus.live, hA.plus.pos⟩ (joinWires_fold hs hN0 hN'.wires ha hb hCa hCb).1 (k2 x)
  | split t1 t2 ia ib hCa hCb pa pb _ hs =>
    obtain ⟨ow, lw, q, q', iw, uw, hD, _⟩ := splitPoly_divide hg hs h0.drawn h0.good ha hb hCa hCb hF hnear
    obtain ⟨p, hp, he⟩ := exact_ex h'.drawn h'.good hx
    have key := fine_regions hN hN' hD.q1 hD.q2 hD.ql hp he (hD.exact hN0.nest hN'.nest hp he)
    -- the reported polygons
    have hpair : ∀ v, sidePoly s' (e, v) = some q ∨ sidePoly s' (e, v) = some q' := by
      have hw : ∀ v, s'.wire (e, v) = some uw ∨ s'.wire (e, v) = some iw := by
        rcases hD.iu with ⟨i1, i2⟩ | ⟨i1, i2⟩ <;> intro v <;> cases v
        · exact Or.inl (i2 ▸ hD.cut.w0)
        · exact Or.inr (i1 ▸ hD.cut.w1)
        · exact Or.inr (i1 ▸ hD.cut.w0)
        · exact Or.inl (i2 ▸ hD.cut.w1)
      intro v
      rcases hw v with k | k
      · exact Or.inl ((sidePoly_of k).trans hD.wu)
      · exact Or.inr ((sidePoly_of k).trans hD.wi)
    have names : ∀ {r r' : Id}, r ∈ s.qid.live → r' ∉ s.qid.live → (∀ x, x ∈ s'.qid.live ↔ x ∈ s.qid.live ∨ x = r') →
        (∃ v, sidePoly s' (e, v) = some r ∧ sidePoly s' (e, !v) = some r') → r = q ∧ r' = q' := by
      rintro r r' r1 r2 r3 ⟨v, v1, _⟩
      refine ⟨?_, ((hD.ql r').1 ((r3 r').2 (Or.inr rfl))).resolve_left r2⟩
      rcases hpair v with k | k
      · exact Option.some.inj (v1.symm.trans k)
      · exact absurd (Option.some.inj (v1.symm.trans k) ▸ r1) hD.q2
    cases hc : s'.change with
    | none => rw [hc] at hT; exact absurd (hT.1 ▸ (hD.ql q').2 (Or.inr rfl)) hD.q2
    | shape _ => rw [hc] at hT; exact absurd (hT.1 ▸ (hD.ql q').2 (Or.inr rfl)) hD.q2
    | split r r' =>
      rw [hc] at hT
      obtain ⟨rfl, rfl⟩ := names hT.1 hT.2.1 hT.2.2.1 hT.2.2.2.1
      exact key
    | add r r' =>
      rw [hc] at hT
      obtain ⟨rfl, rfl⟩ := names hT.1 hT.2.1 hT.2.2.1 hT.2.2.2.1
      exact key
    | join r r' => rw [hc] at hT; exact hT.elim
    | remove r r' => rw [hc] at hT; exact hT.elim

theorem deleteSegment_regions (hg : ArgOk g) {e : Id} {s s' : St K} (hs : deleteSegment g e s = .ok s') (h : Tiled g s)
    (he : e ∈ s.sid.live) (hbr : s.wire (e, true) = s.wire (e, false) → (∀ v, s.next (e, v) ≠ some (e, !v)) → Placed s') :
    TrueDel s s' e s'.change ∧ ∀ x, Off s x → Regions s s' x s'.change := by
  have h' := deleteSegment_tiled hg hs h he hbr
  have hN := h.drawn.nested
  have hN' := h'.drawn.nested
  have hT := deleteSegment_true hs hN he
  refine ⟨hT, fun x hx => ?_⟩
  have h0 := h.quiet
  have hN0 := hN.quiet
  obtain ⟨q0, m0, hex⟩ := exact_ex h.drawn h.good hx
  have same : s'.qid = s.qid → Exact s' x q0 → Regions s s' x s'.change := by
    intro hq hE
    have key : ∀ r ∈ s.qid.live, polyContains s' r x = polyContains s r x := fun r hr =>
      same_regions hN hN' hq m0 hex hE hr
    cases hc : s'.change with
    | none => exact key
    | shape _ => exact key
    | join q q' => rw [hc] at hT; exact absurd rfl ((hT.2.2.1 q').1 (hq ▸ hT.2.1)).2
    | remove q q' => rw [hc] at hT; exact absurd rfl ((hT.2.2.1 q').1 (hq ▸ hT.2.1)).2
    | split q q' => rw [hc] at hT; exact hT.elim
    | add q q' => rw [hc] at hT; exact hT.elim
  have hD0 : DelSeg s s' e := (deleteSegment_next hs hN.inv he).1
  have hoff : Off s' x := Sub.off ⟨hD0.plus.live, hD0.plus.pos⟩ hx
  cases deleteSegment_cases hs with
  | wire hn hs =>
    obtain ⟨hD, _, _, _, _, _, hq2, _⟩ :=
      rmWire_eff hs hN0.inv.links he hN0.free (fun _ w q hw hq => hN0.polyLive (d := (e, true)) he hw hq)
    obtain ⟨k1, k2⟩ := rmWire_good hg hs h0.drawn h0.good h'.drawn he
    exact same hq2 ((k2 x q0 m0).2 hex)
  | dendrite tip ht hr hs =>
    obtain ⟨hD, _, _, hw, _, _, hq2, _⟩ :=
      rmDendrite_eff hs hN0.inv.links he hN0.free (fun _ w q hw hq => hN0.polyLive (d := (e, true)) he hw hq) ht hr
    obtain ⟨k1, k2⟩ := rmDendrite_good hg hs h0.drawn h0.good h'.drawn he ht hr
    exact same hq2 ((k2 x q0).2 hex)
  | split hn hd hs =>
    obtain ⟨_, _, _, aw, bw, q, l, bn, r0, r1, hS, hK⟩ := splitWire_kind hs hN0 he hn hN'.wires (hbr hd hn)
    obtain ⟨k1, k2⟩ := hS.good hg h0.drawn h0.good h'.drawn hK
    exact same hS.qid (k2 x q0 m0 hoff hex)
  | join hn hd hs =>
    obtain ⟨_, lw, rw, lq, rq, q, q', keep, rm, l, r0, r1, hJ⟩ := joinPoly_start hs hN0 he hn hd
    have hne : lw ≠ rw := fun hh => hd (hJ.hlw.trans (hh ▸ hJ.hrw.symm))
    obtain ⟨k1, k2⟩ := hJ.good hg hne h0.drawn h0.good h'.drawn
    have key : ∀ {r r' : Id}, s'.change = .join r r' ∨ s'.change = .remove r r' → r = q ∧ r' = q' := by
      intro r r' hh
      rcases hJ.change with ⟨_, g2⟩ | ⟨_, g2⟩ <;> rw [g2] at hh <;> simp only [Change.join.injEq, Change.remove.injEq, reduceCtorEq, or_false, false_or] at hh <;>
        exact ⟨hh.1.symm, hh.2.symm⟩
    have fin : q ∈ s.qid.live → q' ∈ s.qid.live → q ≠ q' → (∀ x, x ∈ s'.qid.live ↔ x ∈ s.qid.live ∧ x ≠ q') →
        (polyContains s' q x = .ok true ↔ polyContains s q x = .ok true ∨ polyContains s q' x = .ok true) ∧
          ∀ r ∈ s'.qid.live, r ≠ q → polyContains s' r x = polyContains s r x := by
      intro a1 a2 a3 a4
      obtain ⟨b1, b2⟩ := fine_regions hN' hN (q := q) (q' := q') ((a4 q).2 ⟨a1, a3⟩) (fun hh => ((a4 q').1 hh).2 rfl) (fun y => by
        rw [a4]
        by_cases k : y = q'
        · simp [k, a2]
        · simp [k]) m0 hex (k2 x q0 m0 hex)
      exact ⟨b1, fun r hr hne => (b2 r hr hne).symm⟩
    have hqq : ∀ {r r' : Id}, (∃ v, sidePoly s (e, v) = some r ∧ sidePoly s (e, !v) = some r') → r ≠ r' := by
      rintro r r' ⟨v, v1, v2⟩ rfl
      obtain ⟨f1, _⟩ := hN.between he hJ.hlw hJ.hrw hne hJ.hlq hJ.hrq
      have e1 := (sidePoly_of hJ.hlw).trans hJ.hlq
      have e2 := (sidePoly_of hJ.hrw).trans hJ.hrq
      cases v
      · exact f1 (Option.some.inj (e1.symm.trans (v2.trans (v1.symm.trans e2))))
      · exact f1 (Option.some.inj (e1.symm.trans (v1.trans (v2.symm.trans e2))))
    cases hc : s'.change with
    | none => rcases hJ.change with ⟨_, g2⟩ | ⟨_, g2⟩ <;> rw [hc] at g2 <;> cases g2
    | shape _ => rcases hJ.change with ⟨_, g2⟩ | ⟨_, g2⟩ <;> rw [hc] at g2 <;> cases g2
    | split _ _ => rcases hJ.change with ⟨_, g2⟩ | ⟨_, g2⟩ <;> rw [hc] at g2 <;> cases g2
    | add _ _ => rcases hJ.change with ⟨_, g2⟩ | ⟨_, g2⟩ <;> rw [hc] at g2 <;> cases g2
    | join r r' =>
      rw [hc] at hT
      obtain ⟨rfl, rfl⟩ := key (Or.inl hc)
      exact fin hT.1 hT.2.1 (hqq hT.2.2.2.1) hT.2.2.1
    | remove r r' =>
      rw [hc] at hT
      obtain ⟨rfl, rfl⟩ := key (Or.inr hc)
      exact fin hT.1 hT.2.1 (hqq hT.2.2.2.1) hT.2.2.1

/-! ### The regions of drawings -/

/-- **C173.** A new segment changes the regions of the polygons exactly as `last_polygon_change` tells. -/
theorem new_segment_regions (hg : ArgOk g) {s s' : St K} {a b e : Id} (h : Drawing g s) (ha : a ∈ s.pid.live) (hb : b ∈ s.pid.live)
    (hl : FreeLine s a b) (hs : newSegment g a b s = .ok (e, s')) (hnear : Near g s') :
    TrueNew s s' e s'.change ∧ ∀ x, Off s' x → Regions s s' x s'.change :=
  newSegment_regions hg hs (h.tiled hg) (newLine_tiled hg hs (h.tiled hg) ha hb hl hnear) ha hb hnear

/-- **C173.** A removed segment changes the regions of the polygons exactly as `last_polygon_change` tells, if it is not a bridge of an
outer wire. -/
theorem delete_segment_regions (hg : ArgOk g) {s s' : St K} {e : Id} (h : Drawing g s) (he : e ∈ s.sid.live)
    (hs : deleteSegment g e s = .ok s')
    (hb : s.wire (e, true) = s.wire (e, false) → (∃ v, s.next (e, v) = some (e, !v)) ∨
      Near g s' ∧ ∀ q ∈ s.qid.live, s.wire (e, true) ≠ some (s.outer q)) :
    TrueDel s s' e s'.change ∧ ∀ x, Off s x → Regions s s' x s'.change :=
  deleteSegment_regions hg hs (h.tiled hg) he fun hd hn => by
    obtain ⟨hne, ho⟩ := (hb hd).resolve_left fun ⟨v, hv⟩ => hn v hv
    exact deleteSegment_placed hg hs (h.tiled hg) he hd hn ho hne

/-- **C173.** A segment divided in a point of it, and segments joined again, leave the regions as they are. -/
theorem split_segment_regions (hg : ArgOk g) {s s' : St K} {e q n : Id} {t : K} (h : Drawing g s) (he : e ∈ s.sid.live)
    (hq : q ∈ s.qid.live) (t0 : 0 < t) (t1 : t < 1)
    (hs : splitSegment e s.pid.append.1 (addFreePoint (segPt s e t) q s).2 = .ok (n, s')) :
    s'.qid = s.qid ∧ ∀ x, Off s x → ∀ r ∈ s.qid.live, polyContains s' r x = polyContains s r x := by
  obtain ⟨h1, h2, h3⟩ := pointOn_parts hg (h.tiled hg) he hq t0 t1 hs
  refine ⟨h2, fun x hx r hr => ?_⟩
  obtain ⟨q0, m0, hex⟩ := exact_ex (h.tiled hg).drawn (h.tiled hg).good hx
  exact same_regions (h.tiled hg).drawn.nested h1.drawn.nested h2 m0 hex (h3 x hx q0 hex) hr

theorem join_segments_regions (hg : ArgOk g) {s s1 s' : St K} {mid e0 e1 : Id} (h : Drawing g s) (hJ : Joinable s mid e0 e1)
    (hA : Aligned s mid e0 e1) (hB : Proper g s (.joinSegments mid e0 e1)) (hs : joinSegments mid e0 e1 s = .ok s1)
    (hr : removeFreePoint mid s1 = .ok s') :
    s'.qid = s.qid ∧ ∀ x, Off s x → Off s' x → ∀ r ∈ s.qid.live, polyContains s' r x = polyContains s r x := by
  obtain ⟨h1, h2, h3⟩ := join_parts hg (h.tiled hg) hJ hA hB hs hr
  refine ⟨h2, fun x hx hx' r hr => ?_⟩
  obtain ⟨q0, m0, hex⟩ := exact_ex (h.tiled hg).drawn (h.tiled hg).good hx
  exact same_regions (h.tiled hg).drawn.nested h1.drawn.nested h2 m0 hex (h3 x hx' q0 hex) hr

end Verif.Decomp
