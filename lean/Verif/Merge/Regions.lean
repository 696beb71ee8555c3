import Verif.Merge.Props
import Verif.Front.Home
import Verif.Plane.Regions

/-! The map of polygons to the intersected decomposition is right in the plane: each polygon of the result is a part of its value. -/

namespace Verif.Merge
open Verif.Decomp (St Id HE Off Exact Tiled Planar ArgOk sidePoly exact_ex polyContains polyContains_exact segPt)
open Verif.Front (Fr Cfg Err Range Good Wide bindOk liftD_ok key_ok checkOk needOk)

section
variable {K : Type} [Field K] [LinearOrder K] [IsStrictOrderedRing K]

/-- The segments of `s0` are covered by those of `s`, and the polygons of `s` are in the polygons of `s0` that the map `d` gives. -/
structure Reg (s0 s : St K) (d : Dict Id) : Prop where
  off : ∀ x, Off s x → Off s0 x
  poly : ∀ q ∈ s.qid.live, root d q ∈ s0.qid.live
  inn : ∀ x, Off s x → ∀ q ∈ s.qid.live, polyContains s q x = .ok true → polyContains s0 (root d q) x = .ok true

/-! ### Points -/

/-- The state `s'` has the polygons of `s` with the same regions. -/
structure Same (g : Verif.Decomp.Geom K) (s s' : St K) : Prop where
  tiled : Tiled g s'
  off : ∀ x, Off s' x → Off s x
  qid : s'.qid = s.qid
  reg : ∀ x, Off s' x → ∀ q ∈ s.qid.live, polyContains s' q x = polyContains s q x

theorem Same.refl {g : Verif.Decomp.Geom K} {s : St K} (h : Tiled g s) : Same g s s := ⟨h, fun _ hx => hx, rfl, fun _ _ _ _ => rfl⟩

theorem Same.trans {g : Verif.Decomp.Geom K} {s s' s'' : St K} (h : Same g s s') (h' : Same g s' s'') : Same g s s'' :=
  ⟨h'.tiled, fun x hx => h.off x (h'.off x hx), h'.qid.trans h.qid,
    fun x hx q hq => (h'.reg x hx q (h.qid ▸ hq)).trans (h.reg x (h'.off x hx) q hq)⟩

theorem Same.of_exact {g : Verif.Decomp.Geom K} {s s' : St K} (h : Tiled g s) (h' : Tiled g s') (ho : ∀ x, Off s' x → Off s x)
    (hq : s'.qid = s.qid) (he : ∀ x, Off s x → ∀ r, Exact s x r → Exact s' x r) : Same g s s' := by
  refine ⟨h', ho, hq, fun x hx q hql => ?_⟩
  obtain ⟨q0, m0, hex⟩ := exact_ex h.drawn h.good (ho x hx)
  exact Verif.Decomp.same_regions h.drawn.nested h'.drawn.nested hq m0 hex (he x (ho x hx) q0 hex) hql

theorem Reg.same {g : Verif.Decomp.Geom K} {s0 s s' : St K} {d : Dict Id} (h : Reg s0 s d) (h' : Same g s s') : Reg s0 s' d :=
  ⟨fun x hx => h.off x (h'.off x hx), fun q hq => h.poly q (h'.qid ▸ hq), fun x hx q hq hc => by
    rw [h'.qid] at hq
    rw [h'.reg x hx q hq] at hc
    exact h.inn x (h'.off x hx) q hq hc⟩

/-- A point of a divided segment is on one of its parts. -/
theorem SplitAt.off {s s' : St K} {e n mid : Id} {t : K} (h : SplitAt s s' e n mid t) (hL : Verif.Decomp.Inv s) {x : K × K}
    (hx : Off s' x) : Off s x := by
  rintro j hj ⟨u, u0, u1, hu⟩
  have hv : ∀ v, s'.xy (s.vtx (j, v)) = s.xy (s.vtx (j, v)) := fun v => h.xy _ (hL.links.vlive (j, v) hj)
  by_cases hje : j = e
  · subst hje
    have hm := h.xym
    unfold on at hm
    rcases le_total u t with k | k
    · refine hx j ((h.live j).2 (Or.inl hj)) ⟨u / t, div_nonneg u0 h.pos.le, (div_le_one h.pos).2 k, ?_⟩
      rw [h.ve0, h.ve1, hv, hm, hu]
      have ht := h.pos.ne'
      simp only [Verif.Plane.parametric, Verif.Plane.dir, Verif.Front.sub, Prod.mk.injEq]
      constructor <;> field_simp <;> ring
    · have h1 : 0 < 1 - t := by linarith [h.lt]
      refine hx n ((h.live n).2 (Or.inr rfl)) ⟨(u - t) / (1 - t), div_nonneg (by linarith) h1.le, (div_le_one h1).2 (by linarith), ?_⟩
      rw [h.vn0, h.vn1, hv, hm, hu]
      have ht := h1.ne'
      simp only [Verif.Plane.parametric, Verif.Plane.dir, Verif.Front.sub, Prod.mk.injEq]
      constructor <;> field_simp <;> ring
  · refine hx j ((h.live j).2 (Or.inl hj)) ⟨u, u0, u1, ?_⟩
    rw [h.vo j hj hje, h.vo j hj hje, hv, hv]
    exact hu

theorem pointOnSegment_same {c : Cfg K} (hg : ArgOk c.geo) {r : Range K} (hm : 0 < r.m) {f f' : Fr K} (hC : Ctx c r f) {e : Id}
    (he : e ∈ f.dec.sid.live) {t : K} {m : Id × Id} (h : Verif.Front.pointOnSegment e t f = .ok (m, f')) (hT : Tiled c.geo f.dec) :
    Same c.geo f.dec f'.dec := by
  have hoff : ∀ x, Off f'.dec x → Off f.dec x := by
    intro x hx
    rcases (pointOnSegment_ctx hm hC he h).2.2.2 with ⟨rfl, _⟩ | hS
    · exact hx
    · exact hS.off hC.keep.nested.inv hx
  have hG := hC.good
  obtain ⟨po, so, hM⟩ := hG.mirror
  have ht : 0 < f.tol := lt_of_lt_of_le hm hM.tol.1
  unfold Verif.Front.pointOnSegment at h
  dsimp only at h
  split at h
  · cases h
    exact .refl hT
  next h0 =>
  split at h
  · cases h
    exact .refl hT
  next h1 =>
  simp only [bindOk] at h
  obtain ⟨⟨mid, f1⟩, ha, ⟨n, f2⟩, hs, h⟩ := h
  cases h
  simp only [Verif.Front.addPt, bindOk, key_ok] at ha
  obtain ⟨_, hq, b, _, ha⟩ := ha
  cases ha
  simp only [Verif.Front.splitSegment, bindOk, liftD_ok, key_ok] at hs
  obtain ⟨_, _, _, _, ⟨n', s'⟩, hs, _, _, hs'⟩ := hs
  cases hs'
  have h1' := (Verif.Front.not_scaledLt ht h1).1
  have hat := Verif.Front.at_seg hG he t
  unfold Verif.Front.at_ at hat
  rw [hat] at hs
  obtain ⟨k1, k2, k3⟩ := Verif.Decomp.pointOn_parts hg hT he hq (Verif.Front.not_scaledLt ht h0).1 (by linarith) hs
  exact .of_exact hT k1 hoff k2 k3

theorem addPoint_same {c : Cfg K} (hg : ArgOk c.geo) {r : Range K} (hr : r.Ok) {f f' : Fr K} (hC : Ctx c r f) {x : K × K}
    (hx : Verif.Front.Bounded r.C x) {p : Id} (h : Verif.Front.addPoint c x f = .ok (p, f')) (hT : Tiled c.geo f.dec) :
    Same c.geo f.dec f'.dec := by
  have hT' := Verif.Front.addPoint_tiled hg hr hC.good hx h hT
  unfold Verif.Front.addPoint at h
  simp only [bindOk] at h
  obtain ⟨s, hs, h⟩ := h
  have hso := Verif.Front.snapPoint_spec hr hC.good hx hs
  cases s with
  | point q => cases h; exact .refl hT
  | segment e t =>
    obtain ⟨_, he, _⟩ := hso
    simp only [bindOk] at h
    obtain ⟨⟨m, f2⟩, h, h'⟩ := h
    cases h'
    exact pointOnSegment_same hg hr.m hC he h hT
  | polygon q =>
    have hA := (addPt_ctx hr.m hC hx h).2.1
    have hl := hC.keep.nested.inv.links
    simp only [Verif.Front.addPt, bindOk, key_ok] at h
    obtain ⟨_, hq, b, _, h⟩ := h
    cases h
    have hpos : ∀ d : HE, d.1 ∈ f.dec.sid.live → (Verif.Decomp.addFreePoint x q f.dec).2.xy (f.dec.vtx d) = f.dec.xy (f.dec.vtx d) :=
      fun d hd => hA.xy _ (hl.vlive d hd)
    refine .of_exact hT hT' (fun y hy e he hh => hy e he ?_) rfl
      fun y _ r hr => hr.frame rfl (Verif.Decomp.cnt_pic (s := f.dec) (t := (Verif.Decomp.addFreePoint x q f.dec).2) rfl rfl hpos y) rfl rfl
    dsimp only
    change Verif.Plane.OnSeg ((Verif.Decomp.addFreePoint x q f.dec).2.xy (f.dec.vtx (e, false)))
      ((Verif.Decomp.addFreePoint x q f.dec).2.xy (f.dec.vtx (e, true))) y
    rw [hpos (e, false) he, hpos (e, true) he]
    exact hh

omit [Field K] [LinearOrder K] [IsStrictOrderedRing K] in
theorem splitMap_self2 {n : Nat} {q : Id} {f : Fr K} {m m' : Maps} (hs : splitMap n q f m = .ok m') : m'.self2 = m.self2 := by
  unfold splitMap at hs
  split at hs
  · cases hs; rfl
  · split at hs
    · simp only [bindOk] at hs
      obtain ⟨k, _, k', _, _, _, hs⟩ := hs
      cases hs
      rfl
    · cases hs; rfl

theorem addPoints_reg {c : Cfg K} (hg : ArgOk c.geo) {r : Range K} (hr : r.Ok) {s0 so : St K} :
    ∀ {ps : List Id} {f f' : Fr K} {m m' : Maps} {opm opm' : Dict Id}, (∀ p ∈ ps, Verif.Front.Bounded r.C (so.xy p)) → Ctx c r f →
      Tiled c.geo f.dec → Reg s0 f.dec m.self2 → addPoints c so ps m opm f = .ok (m', opm', f') →
      Ctx c r f' ∧ Tiled c.geo f'.dec ∧ Reg s0 f'.dec m'.self2
  | [], f, f', m, m', opm, opm', _, hC, hT, hR, hs => by cases hs; exact ⟨hC, hT, hR⟩
  | p :: ps, f, f', m, m', opm, opm', hb, hC, hT, hR, hs => by
    rw [addPoints] at hs
    simp only [bindOk] at hs
    obtain ⟨⟨q, f1⟩, k1, m1, k2, hs⟩ := hs
    have hS := addPoint_same hg hr hC (hb p (by simp)) k1 hT
    refine addPoints_reg (m := { m1 with other0 := set m1.other0 q p }) hg hr (fun x hx => hb x (by simp [hx]))
      (addPoint_ctx hr hC (hb p (by simp)) k1).1 hS.tiled ?_ hs
    dsimp only
    rw [splitMap_self2 k2]
    exact hR.same hS

/-! ### Lines -/

theorem segIsecs_same {c : Cfg K} (hg : ArgOk c.geo) {r : Range K} (hm : 0 < r.m) {a b : Id} : ∀ {es : List Id}
    {l l' : List (Verif.Front.Div K)} {f f' : Fr K}, Ctx c r f → Verif.Front.segIsecs c a b es l f = .ok (l', f') → Tiled c.geo f.dec →
    Ctx c r f' ∧ Same c.geo f.dec f'.dec
  | [], l, l', f, f', hC, h, hT => by cases h; exact ⟨hC, .refl hT⟩
  | e :: es, l, l', f, f', hC, h, hT => by
    rw [Verif.Front.segIsecs] at h
    simp only [bindOk, key_ok] at h
    obtain ⟨_, he, h⟩ := h
    split at h
    · exact segIsecs_same hg hm hC h hT
    · simp only [bindOk] at h
      obtain ⟨⟨m, f1⟩, h1, h⟩ := h
      have hS := pointOnSegment_same hg hm hC he h1 hT
      obtain ⟨k1, k2⟩ := segIsecs_same hg hm (pointOnSegment_ctx hm hC he h1).1 h hS.tiled
      exact ⟨k1, hS.trans k2⟩

omit [IsStrictOrderedRing K] [Field K] [LinearOrder K] in
theorem divMaps_self2 : ∀ {l : List (Verif.Front.Div K)} {m m' : Maps}, divMaps l m = .ok m' → m'.self2 = m.self2
  | [], m, m', hs => by cases hs; rfl
  | d :: ds, m, m', hs => by
    rw [divMaps] at hs
    simp only [bindOk] at hs
    obtain ⟨_, _, hs⟩ := hs
    rw [divMaps_self2 hs]

/-- What is assumed of the drawing after each piece of a line: points lie on segments only as ends, segments meet only in ends, and
the drawing is not too narrow for the test points of `contains_wire`. -/
def Fine (c : Cfg K) (g : Log K) : Prop := ∀ s ∈ g.states, Planar s ∧ Wide c s

theorem piece_reg {c : Cfg K} (hg : ArgOk c.geo) (hge : 0 < c.geo.eps) {r : Range K} (hm : 0 < r.m) {s0 : St K} {f f' : Fr K}
    {m m' : Maps} {g g' : Log K} {o qr ql a b : Id} (hC : Ctx c r f) (hT : Tiled c.geo f.dec) (hR : Reg s0 f.dec m.self2)
    (hs : piece c o qr ql a b m g f = .ok (m', g', f')) (hF : Fine c g') : Ctx c r f' ∧ Tiled c.geo f'.dec ∧ Reg s0 f'.dec m'.self2 := by
  unfold piece at hs
  simp only [bindOk] at hs
  obtain ⟨⟨e, f1⟩, h1, m1, h2, x, h3, y, h4, hs⟩ := hs
  simp only [Except.ok.injEq, Prod.mk.injEq] at hs
  obtain ⟨rfl, rfl, rfl⟩ := hs
  obtain ⟨hP, hW⟩ := hF f1.dec (by simp)
  have hT' := Verif.Front.addSegment_tiled hg hge hm hC.good h1 hP hW hT
  have hC' := (addSegment_ctx hm hC h1 hT'.drawn.nested.nest.noSwap).1
  refine ⟨hC', hT', ?_⟩
  have hA := Verif.Front.addSegment_part hC.good h1
  have hoff : ∀ z, Off f1.dec z → Off f.dec z := by
    intro z hz j hj hh
    have := hz j (hA.segs j hj).1
    rw [hA.xy, (hA.segs j hj).2, (hA.segs j hj).2] at this
    exact this hh
  have hnear := hW.near hge hT'.drawn.nested.wires hT'.drawn.links hP (Verif.Decomp.vectors_exact_partial hC'.good.reach)
  have hreg : Verif.Decomp.TrueNew f.dec f1.dec e f1.dec.change ∧ ∀ z, Off f1.dec z → Verif.Decomp.Regions f.dec f1.dec z f1.dec.change := by
    simp only [Verif.Front.addSegment, bindOk, liftD_ok, key_ok] at h1
    obtain ⟨_, ha, _, hb, ⟨e', s'⟩, h1, u, hu, h1'⟩ := h1
    cases h1'
    exact Verif.Decomp.newSegment_regions hg h1 hT hT' ha hb hnear
  obtain ⟨hN, hRg⟩ := hreg
  have plain : f1.dec.qid = f.dec.qid → (∀ z, Off f1.dec z → ∀ q ∈ f.dec.qid.live, polyContains f1.dec q z = polyContains f.dec q z) →
      m1.self2 = m.self2 → Reg s0 f1.dec m1.self2 := by
    intro k1 k2 k3
    rw [k3]
    exact hR.same (g := c.geo) ⟨hT', hoff, k1, k2⟩
  have two : ∀ q q', q ∈ f.dec.qid.live → q' ∉ f.dec.qid.live → (∀ x, x ∈ f1.dec.qid.live ↔ x ∈ f.dec.qid.live ∨ x = q') →
      (∀ z, Off f1.dec z → (polyContains f.dec q z = .ok true ↔ polyContains f1.dec q z = .ok true ∨ polyContains f1.dec q' z = .ok true) ∧
        ∀ p ∈ f.dec.qid.live, p ≠ q → polyContains f1.dec p z = polyContains f.dec p z) →
      m1.self2 = set m.self2 q' (root m.self2 q) → Reg s0 f1.dec m1.self2 := by
    intro q q' hq hq' hl hz hm1
    refine ⟨fun z h => hR.off z (hoff z h), fun p hp => ?_, fun z h p hp hc => ?_⟩
    · rw [hm1, root_set]
      split
      · exact hR.poly q hq
      · next hh => exact hR.poly p (((hl p).1 hp).resolve_right hh)
    obtain ⟨j1, j2⟩ := hz z h
    rw [hm1, root_set]
    split
    · next hh =>
      subst hh
      exact hR.inn z (hoff z h) q hq (j1.2 (Or.inr hc))
    · next hh =>
      have hp' := ((hl p).1 hp).resolve_right hh
      refine hR.inn z (hoff z h) p hp' ?_
      by_cases hpq : p = q
      · subst hpq
        exact j1.2 (Or.inl hc)
      · rw [← j2 p hp' hpq]
        exact hc
  dsimp only
  cases hc : f1.dec.change with
  | none =>
    rw [hc] at hN hRg h2
    cases h2
    exact plain hN.1 hRg rfl
  | shape z =>
    rw [hc] at hN hRg h2
    cases h2
    exact plain hN.1 hRg rfl
  | split q q' =>
    rw [hc] at hN hRg h2
    cases h2
    exact two q q' hN.1 hN.2.1 hN.2.2.1 hRg rfl
  | add q q' =>
    rw [hc] at hN hRg h2
    cases h2
    exact two q q' hN.1 hN.2.1 hN.2.2.1 hRg rfl
  | join q q' =>
    rw [hc] at h2
    cases h2
  | remove q q' =>
    rw [hc] at h2
    cases h2

theorem pieces_reg {c : Cfg K} (hg : ArgOk c.geo) (hge : 0 < c.geo.eps) {r : Range K} (hm : 0 < r.m) {s0 : St K} {o qr ql b : Id} :
    ∀ {l : List (Verif.Front.Div K)} {start : Id} {f f' : Fr K} {m m' : Maps} {g g' : Log K}, Ctx c r f → Tiled c.geo f.dec →
      Reg s0 f.dec m.self2 → pieces c o qr ql b start l m g f = .ok (m', g', f') → Fine c g' →
      Ctx c r f' ∧ Tiled c.geo f'.dec ∧ Reg s0 f'.dec m'.self2
  | [], start, f, f', m, m', g, g', hC, hT, hR, hs, hF => by
    rw [pieces] at hs
    split at hs
    · exact piece_reg hg hge hm hC hT hR hs hF
    · cases hs; exact ⟨hC, hT, hR⟩
  | d :: ds, start, f, f', m, m', g, g', hC, hT, hR, hs, hF => by
    rw [pieces] at hs
    split at hs
    · exact pieces_reg hg hge hm hC hT hR hs hF
    · split at hs
      · simp only [bindOk] at hs
        obtain ⟨⟨p, f1⟩, h1, hs⟩ := hs
        obtain ⟨_, rfl⟩ := mergePoints_same hC.bnd h1
        exact pieces_reg hg hge hm hC hT hR hs hF
      · simp only [bindOk] at hs
        obtain ⟨⟨m1, g1, f1⟩, h1, hs⟩ := hs
        obtain ⟨_, a2⟩ := pieces_log hs
        obtain ⟨k1, k2, k3⟩ := piece_reg hg hge hm hC hT hR h1 fun s h => hF s (a2 s h)
        exact pieces_reg hg hge hm k1 k2 k3 hs hF

theorem addSegs_reg {c : Cfg K} (hg : ArgOk c.geo) (hge : 0 < c.geo.eps) {r : Range K} (hm : 0 < r.m) {s0 so : St K} {opm : Dict Id} :
    ∀ {es : List Id} {f f' : Fr K} {m m' : Maps} {g g' : Log K}, Ctx c r f → Tiled c.geo f.dec → Reg s0 f.dec m.self2 →
      addSegs c so opm es m g f = .ok (m', g', f') → Fine c g' → Ctx c r f' ∧ Tiled c.geo f'.dec ∧ Reg s0 f'.dec m'.self2
  | [], f, f', m, m', g, g', hC, hT, hR, hs, _ => by cases hs; exact ⟨hC, hT, hR⟩
  | e :: es, f, f', m, m', g, g', hC, hT, hR, hs, hF => by
    rw [addSegs] at hs
    simp only [bindOk, needOk, key_ok] at hs
    obtain ⟨a, _, _, ha, b, _, _, hb, hs⟩ := hs
    split at hs
    · exact addSegs_reg hg hge hm hC hT hR hs hF
    · simp only [bindOk] at hs
      obtain ⟨qr, hqr, ql, hql, ⟨l, f1⟩, h1, m1, h2, ⟨m2, g2, f2⟩, h3, hs⟩ := hs
      unfold Verif.Front.lineIsecs at h1
      simp only [bindOk] at h1
      obtain ⟨x, hx, h1⟩ := h1
      obtain ⟨k1, k2⟩ := segIsecs_same hg hm hC h1 hT
      obtain ⟨_, b2⟩ := addSegs_log hs
      obtain ⟨j1, j2, j3⟩ := pieces_reg hg hge hm k1 k2.tiled (by rw [divMaps_self2 h2]; exact hR.same k2) h3 fun s h => hF s (b2 s h)
      exact addSegs_reg hg hge hm j1 j2 j3 hs hF

/-- Decompositions made by intersections from an empty one, with drawings as `Fine` tells. -/
inductive Common (c : Cfg K) (r : Range K) : Fr K → Prop
  | empty {tol : K} : r.m ≤ tol ∧ tol ≤ r.T → Common c r (Verif.Front.init r.inf r.rt2 tol)
  | step {tol : K} {so : St K} {f f' : Fr K} {m : Maps} {g : Log K} : Common c r f → Nums c r tol → Given r so →
      intersectSingle c tol so f = .ok (m, g, f') → Fine c g → Common c r f'

theorem intersectSingle_reg {c : Cfg K} (hg : ArgOk c.geo) (hge : 0 < c.geo.eps) {r : Range K} {tol : K} (hn : Nums c r tol) {so : St K}
    (hso : Given r so) {f f' : Fr K} (hC : Ctx c r f) (hT : Tiled c.geo f.dec) {m : Maps} {g : Log K}
    (hs : intersectSingle c tol so f = .ok (m, g, f')) (hF : Fine c g) :
    Ctx c r f' ∧ Tiled c.geo f'.dec ∧ Reg f.dec f'.dec m.self2 := by
  unfold intersectSingle at hs
  simp only [bindOk] at hs
  obtain ⟨⟨m1, opm, f1⟩, h1, ⟨m2, g2, f2⟩, h2, d, h3, hs⟩ := hs
  simp only [Except.ok.injEq, Prod.mk.injEq] at hs
  obtain ⟨rfl, rfl, rfl⟩ := hs
  have hft : r.m ≤ f.tol ∧ f.tol ≤ r.T := by
    obtain ⟨po, so, hM⟩ := hC.good.mirror
    exact hM.tol
  obtain ⟨a1, a2, a3⟩ := addPoints_reg hg hn.ok (s0 := f.dec) hso.bounded (hC.tol hn.tol) hT
    ⟨fun x hx => hx, fun q hq => by simpa [root, get] using hq, fun x _ q _ hc => by simpa [root, get] using hc⟩ h1
  obtain ⟨b1, b2, b3⟩ := addSegs_reg hg hge hn.ok.m a1 a2 a3 h2 hF
  exact ⟨b1.tol hft, b2, b3⟩

theorem Common.tiled {c : Cfg K} (hg : ArgOk c.geo) (hge : 0 < c.geo.eps) {r : Range K} {f : Fr K} (h : Common c r f) :
    Ctx c r f ∧ Tiled c.geo f.dec := by
  induction h with
  | empty ht => exact ⟨start_ctx ht, Verif.Decomp.init_tiled⟩
  | step _ hn hso hs hF ih =>
    obtain ⟨k1, k2, _⟩ := intersectSingle_reg hg hge hn hso ih.1 ih.2 hs hF
    exact ⟨k1, k2⟩

/-- **C179.** Each polygon `q` of the result of `intersect_single` is a part of the polygon `maps_self[2].get(q, q)`: a point off the
segments of the result that is in `q` is in that polygon of the decomposition before. Each polygon before is the union of the polygons
of the result with it as value, and the segments before are covered by those of the result. -/
theorem intersect_regions_self {c : Cfg K} (hg : ArgOk c.geo) (hge : 0 < c.geo.eps) {r : Range K} {tol : K} (hn : Nums c r tol) {so : St K}
    (hso : Given r so) {f f' : Fr K} (h : Common c r f) {m : Maps} {g : Log K} (hs : intersectSingle c tol so f = .ok (m, g, f'))
    (hF : Fine c g) {x : K × K} (hx : Off f'.dec x) : Off f.dec x ∧ (∃ q ∈ f'.dec.qid.live, polyContains f'.dec q x = .ok true) ∧
      (∀ q ∈ f'.dec.qid.live, root m.self2 q ∈ f.dec.qid.live) ∧
      ∀ p ∈ f.dec.qid.live, polyContains f.dec p x = .ok true ↔
        ∃ q ∈ f'.dec.qid.live, root m.self2 q = p ∧ polyContains f'.dec q x = .ok true := by
  obtain ⟨hC, hT⟩ := h.tiled hg hge
  obtain ⟨_, hT', hR⟩ := intersectSingle_reg hg hge hn hso hC hT hs hF
  obtain ⟨q0, m0, hq⟩ := Verif.Decomp.polygons_partition hT'.drawn hT'.good hx
  obtain ⟨p0, n0, hp⟩ := Verif.Decomp.polygons_partition hT.drawn hT.good (hR.off x hx)
  have h0 : polyContains f'.dec q0 x = .ok true := by rw [hq q0 m0]; simp
  have key : root m.self2 q0 = p0 := by
    have := hR.inn x hx q0 m0 h0
    rw [hp _ (hR.poly q0 m0)] at this
    simpa using this
  refine ⟨hR.off x hx, ⟨q0, m0, h0⟩, hR.poly, fun p hpl => ?_⟩
  constructor
  · intro hc
    rw [hp p hpl] at hc
    have : p = p0 := by simpa using hc
    exact ⟨q0, m0, key.trans this.symm, h0⟩
  · rintro ⟨q, hql, rfl, hc⟩
    exact hR.inn x hx q hql hc

end
end Verif.Merge
