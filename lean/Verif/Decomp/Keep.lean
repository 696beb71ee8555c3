import Verif.Decomp.Bridge

/-! Calls that keep the nesting. -/
namespace Verif.Decomp

variable {K : Type} [Field K]

variable [LinearOrder K]

/-- The arguments of a call are valid: a new point is put into an existing polygon, joined segments have the same direction. After a
new segment no two wires are the parents of each other. After the deletion of a segment between two parts of a wire no wire is its own
parent and every outer wire is connected with its parent. -/
def Keeps (s s' : St K) (o : Op K) : Prop :=
  Valid s o ∧ (match o with
    | .addPoint _ q => q ∈ s.qid.live
    | .newSegment _ _ => NoSwap s'
    | .deleteSegment e => s.wire (e, true) = s.wire (e, false) → (∀ v, s.next (e, v) ≠ some (e, !v)) → Placed s'
    | .joinSegments mid e0 e1 => Aligned s mid e0 e1
    | _ => True)

theorem newSegment_nested {g : Geom K} {a b e : Id} {s s' : St K} (hs : newSegment g a b s = .ok (e, s')) (h : Nested s)
    (ha : a ∈ s.pid.live) (hb : b ∈ s.pid.live) (hno : NoSwap s') : Nested s' := by
  have hI := newSegment_inv hs h.inv ha hb
  have hW := newSegment_wires hs h.inv h.wires ha hb
  obtain ⟨hab, hs⟩ := newSegment_cases hs h.inv.links ha hb
  have h0 := h.quiet
  have key : ∀ {s' : St K}, Inv s' → Wires s' → UpTree s' ∧ Free True s' ∧ NestSt s' → Nested s' := fun a b c =>
    ⟨a, b, c.1, c.2.1, c.2.2⟩
  cases hs with
  | old _ hs =>
    dsimp only at hs
    subst hs
    exact h0
  | wire t1 t2 pa pb q qa qb hs => exact key hI hW (newWire_nested hs h0 ha hb pa pb (h.free.full trivial a ha q qa).1)
  | dendrite t1 t2 i root hC pa pb hs => exact key hI hW (addDendrite_nested hs h0 ha hb hC pa)
  | join t1 t2 ia ib hCa hCb pa pb _ hs => exact key hI hW (joinWires_nested hs h0 hW ha hb hCa hCb)
  | split t1 t2 ia ib hCa hCb pa pb _ hs => exact key hI hW (splitPoly_nested hs h0 ha hb hCa hCb hno)

theorem deleteSegment_nested {g : Geom K} {e : Id} {s s' : St K} (hs : deleteSegment g e s = .ok s') (h : Nested s)
    (he : e ∈ s.sid.live) (hbr : s.wire (e, true) = s.wire (e, false) → (∀ v, s.next (e, v) ≠ some (e, !v)) → Placed s') : Nested s' := by
  have hI := deleteSegment_inv hs h.inv he
  have hW := deleteSegment_wires hs h.inv h.wires he (h.delOk he)
  have h0 := h.quiet
  have key : ∀ {s' : St K}, Inv s' → Wires s' → UpTree s' ∧ Free True s' ∧ NestSt s' → Nested s' := fun a b c =>
    ⟨a, b, c.1, c.2.1, c.2.2⟩
  cases deleteSegment_cases hs with
  | wire hn hs => exact key hI hW (rmWire_nested hs h0 he hW)
  | dendrite tip ht hr hs => exact key hI hW (rmDendrite_nested hs h0 he ht hr)
  | split hn hd hs => exact key hI hW (splitWire_nested hs h0 he hn hW (hbr hd hn))
  | join hn hd hs => exact key hI hW (joinPoly_nested hs h0 he hn hd hW)

theorem step_nested {g : Geom K} {o : Op K} {s s' : St K} (hs : step g s o = .ok s') (h : Nested s) (hV : Keeps s s' o) :
    Nested s' := by
  have hI := step_inv hs h.inv hV.1
  have hSo : Sound s o := by
    refine ⟨hV.1, ?_⟩
    cases o with
    | deleteSegment e => exact h.delOk hV.1
    | joinSegments mid e0 e1 => exact hV.2
    | _ => trivial
  have hW := step_wires hs h.inv h.wires hSo
  obtain ⟨hV, hK⟩ := hV
  cases o with
  | addPoint xy q =>
    simp only [step, Except.ok.injEq] at hs
    subst hs
    refine h.frame hI hW ⟨hI.free.nd, hI.free.mem, hI.free.seg, fun _ p hp r hr => ?_⟩ rfl rfl rfl rfl rfl rfl fun _ _ => Iff.rfl
    obtain ⟨h1, h2, h3⟩ := Ids.append_ok h.inv.pids
    have hp' : p ∈ s.pid.live ∨ p = s.pid.append.1 := by
      have : p ∈ s.pid.append.2.live := hp
      rw [h2] at this
      simpa using this
    simp only [addFreePoint] at hr ⊢
    rcases hp' with hp' | rfl
    · have hne : p ≠ s.pid.append.1 := fun hh => h1 (hh ▸ hp')
      simp only [upd, Function.update_of_ne hne] at hr
      obtain ⟨g1, g2⟩ := h.free.full trivial p hp' r hr
      refine ⟨g1, ?_⟩
      by_cases hrq : r = q
      · subst hrq
        simp only [upd, Function.update_self, mem_insertSet]
        tauto
      · simp only [upd, Function.update_of_ne hrq]
        exact g2
    · simp only [upd, Function.update_self, Option.some.injEq] at hr
      subst hr
      refine ⟨hK, ?_⟩
      simp only [upd, Function.update_self, mem_insertSet]
      tauto
  | removePoint p =>
    simp only [step] at hs
    unfold removeFreePoint at hs
    simp only [bind_ok, check_ok, need_ok, Except.ok.injEq, removeSet_ok] at hs
    obtain ⟨_, c1, q, hq, _, c2, l, ⟨hl, rfl⟩, m, hm, rfl⟩ := hs
    refine h.frame hI hW ⟨hI.free.nd, hI.free.mem, hI.free.seg, fun _ x hx r hr => ?_⟩ rfl rfl rfl rfl rfl rfl fun _ _ => Iff.rfl
    have hx' := ((Ids.remove_ok h.inv.pids hm).2.2.2 x).1 hx
    obtain ⟨g1, g2⟩ := h.free.full trivial x hx'.2 r hr
    refine ⟨g1, ?_⟩
    by_cases hrq : r = q
    · subst hrq
      simp only [upd, Function.update_self]
      exact (h.free.nd r).mem_erase_iff.2 ⟨hx'.1, g2⟩
    · simp only [upd, Function.update_of_ne hrq]
      exact g2
  | newSegment a b =>
    simp only [step, bind_ok, Except.ok.injEq] at hs
    obtain ⟨⟨e, s1⟩, h1, h2⟩ := hs
    dsimp only at h2
    subst h2
    exact newSegment_nested h1 h hV.1 hV.2 hK
  | deleteSegment e => exact deleteSegment_nested hs h hV hK
  | splitSegment e mid =>
    simp only [step, bind_ok, Except.ok.injEq] at hs
    obtain ⟨⟨n, s1⟩, h1, h2⟩ := hs
    dsimp only at h2
    subst h2
    obtain ⟨_, hF, h3⟩ := splitSegment_eff h1 h.inv.links hV.1 hV.2.1 hV.2.2 h.free
      (fun _ w q hw hq => h.polyLive (d := (e, true)) hV.1 hw hq)
    exact h.frame hI hW hF h3.wid h3.parent h3.childs h3.qid h3.wpoly h3.outer (splitSegment_share h3)
  | joinSegments mid e0 e1 =>
    have hfar := hV.far h.inv.tab
    obtain ⟨v0, hv0⟩ := hV.2.2.2.1
    obtain ⟨v1, hv1⟩ := hV.2.2.2.2.1
    obtain ⟨_, hF, x, y, hx, hy, hxm, hJ, _⟩ := joinSegments_eff hs h.inv.links hV.1 hV.2.1 hV.2.2.1
      (by cases v0; exacts [Or.inl hv0, Or.inr hv0]) (by cases v1; exacts [Or.inl hv1, Or.inr hv1]) hfar h.free
      (fun _ d hd w q hw hq => h.polyLive hd hw hq)
    exact h.frame hI hW hF hJ.wid hJ.parent hJ.childs hJ.qid hJ.wpoly hJ.outer
      (joinSegments_share h.wires hJ (hy ▸ hV.2.1))
  | move p d =>
    obtain ⟨vc, rfl⟩ := movePoint_eq hs
    exact h.frame hI hW (h.free.congr rfl rfl rfl rfl rfl) rfl rfl rfl rfl rfl rfl fun _ _ => Iff.rfl

/-- States reached from the empty decomposition by calls that keep the nesting and raise no exception. -/
inductive KeepReach (g : Geom K) : St K → Prop where
  | init : KeepReach g init
  | step {s s' : St K} {o : Op K} (h : KeepReach g s) (hV : Keeps s s' o) (hs : step g s o = .ok s') : KeepReach g s'

theorem KeepReach.nested {g : Geom K} {s : St K} (h : KeepReach g s) : Nested s := by
  induction h with
  | init => exact init_nested
  | step _ hV hs ih => exact step_nested hs ih hV

/-- As long as no polygon was closed, the deletion of any segment keeps the nesting. -/
theorem KeepReach.deleteOpen {g : Geom K} {s s' : St K} (h : KeepReach g s) (hq : s.qid.live = [0]) {e : Id} (he : e ∈ s.sid.live)
    (hs : deleteSegment g e s = .ok s') : KeepReach g s' := by
  refine .step (o := .deleteSegment e) h ⟨he, fun hw hn => ?_⟩ hs
  have hN := h.nested
  cases deleteSegment_cases hs with
  | wire hn' _ => exact absurd (hn' false) (hn false)
  | dendrite tip ht _ _ => exact absurd ht (hn tip)
  | split _ _ hs =>
    have h0 := hN.quiet
    refine ⟨splitWire_noself hs h0 he hn fun q hq' hh => ?_, fun q hq' h0' => ?_⟩
    · have : q = 0 := by
        have : q ∈ s.qid.live := hq'
        rw [hq] at this
        simpa using this
      subst this
      obtain ⟨w, w1, _, w3⟩ := hN.wires.lab (e, true) he
      rw [show s.wire (e, true) = _ from hh] at w1
      exact w3 ((Option.some.inj w1).symm.trans hN.nest.o0)
    · obtain ⟨_, aw, bw, q, l, bn, r0, r1, hS⟩ := splitWire_eff (T := True) hs h0.inv.links he h0.free
        (fun _ w q hw hq => h0.polyLive (d := (e, true)) he hw hq) (hn false) (hn true)
      rw [hS.qid] at hq'
      have hq'' : _ ∈ s.qid.live := hq'
      rw [hq] at hq''
      exact absurd (by simpa using hq'') h0'
  | join _ hd _ => exact absurd hw hd

end Verif.Decomp
