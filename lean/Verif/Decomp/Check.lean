import Verif.Decomp.NestedProps

/-! The test of consistency `Decomposition.check_consistency` (decomp.py:98-153). -/
namespace Verif.Decomp

section
variable {K : Type}

/-- A `for` loop of asserts. -/
def forAll {α : Type} (f : α → Except Err Unit) : List α → Except Err Unit
  | [] => .ok ()
  | a :: l => do
    f a
    forAll f l

/-- Lines decomp.py:105-110: a free point of the polygon `q`. The comparison of a segment with `None` is an `AttributeError`
(idmap.py:16-17), so is the access to `None.id`. -/
def checkFree (s : St K) (q p : Id) : Except Err Unit := do
  let r ← need (s.ppoly p)
  check (r ∈ s.qid.live)
  check (r = q)
  if s.pseg p = none then .ok () else .error .noneUsed

/-- Lines decomp.py:100-110: a polygon. -/
def checkPoly (s : St K) (q : Id) : Except Err Unit := do
  check (s.outer q ∈ s.wid.live)
  let r ← need (s.wpoly (s.outer q))
  check (r = q)
  forAll (checkFree s q) (s.fpts q)

/-- Lines decomp.py:112-124: a wire. The result is the segment read in line 121, `none` for a root wire. Line 115
(`child.parent == w`) has no effect. -/
def checkWire (s : St K) (w : Id) : Except Err (Option Id) := do
  forAll (fun c => check (c ∈ s.wid.live)) (s.childs w)
  let q ← need (s.wpoly w)
  check (q ∈ s.qid.live)
  check (w = s.outer q ∨ w ∈ s.childs (s.outer q))
  match s.parent w with
  | none => do
    check (w = s.outer 0)
    .ok none
  | some p => do
    let d ← need (s.wseg w)
    check (d.1 ∈ s.sid.live)
    check (s.wire d = some w)
    check (w ∈ s.childs p)
    .ok (some d.1)

/-- The loop of lines decomp.py:112-124; `last` is the value of the variable `seg`, `none` before its first assignment. -/
def checkWires (s : St K) : List Id → Option Id → Except Err (Option Id)
  | [], last => .ok last
  | w :: l, last => do
    let e ← checkWire s w
    checkWires s l (e.or last)

/-- `Point.segments()` (point.py:29-46) without an argument. -/
def ends (s : St K) (p : Id) : Except Err (List HE) :=
  match s.pseg p with
  | none => .ok []
  | some d => around s d

/-- Lines decomp.py:128-137: a side of a segment. -/
def checkSide (s : St K) (d : HE) : Except Err Unit := do
  check (s.vtx d ∈ s.pid.live)
  let w ← need (s.wire d)
  check (w ∈ s.wid.live)
  let k ← need (s.next d)
  check (k.1 ∈ s.sid.live)
  let l ← ends s (s.vtx d)
  check (d.1 ∈ l.map Prod.fst)
  let b ← need (s.wseg w)
  check (s.wire b = some w)
  check (s.wire k = some w)

/-- Lines decomp.py:126-137: a segment `e`. Line 127 tests the variable `seg` of the loop over wires; it is an
`UnboundLocalError` (here `noneUsed`) if there was none. -/
def checkSegment (s : St K) (last : Option Id) (e : Id) : Except Err Unit := do
  let e0 ← need last
  check (s.table (s.vtx (e0, false), s.vtx (e0, true)) ≠ none)
  checkSide s (e, false)
  checkSide s (e, true)

/-- Lines decomp.py:139-143: an item of `pt_to_seg`. Simplification: `x_seg is seg` holds, objects are ids. -/
def checkItem (s : St K) (x : (Id × Id) × Id) : Except Err Unit := do
  check (x.2 ∈ s.sid.live)
  check ((s.vtx (x.2, false), s.vtx (x.2, true)) = x.1)

/-- Lines decomp.py:145-152: a point. -/
def checkPoint (s : St K) (p : Id) : Except Err Unit :=
  match s.pseg p with
  | none => do
    let q ← need (s.ppoly p)
    check (q ∈ s.qid.live)
    check (p ∈ s.fpts q)
  | some d => do
    check (d.1 ∈ s.sid.live)
    check (s.vtx d = p)

/-- `Decomposition.check_consistency` (decomp.py:98-153). `items` are the items of `pt_to_seg` in some order. -/
def checkConsistency (s : St K) (items : List ((Id × Id) × Id)) : Except Err Bool := do
  forAll (checkPoly s) s.qid.live
  let last ← checkWires s s.wid.live none
  forAll (checkSegment s last) s.sid.live
  forAll (checkItem s) items
  forAll (checkPoint s) s.pid.live
  .ok true

/-- `items` are the items of the table of segments. -/
def ItemsOf (s : St K) (items : List ((Id × Id) × Id)) : Prop := ∀ k e, (k, e) ∈ items ↔ s.table k = some e

theorem forAll_ok {α : Type} {f : α → Except Err Unit} {l : List α} {u : Unit} : forAll f l = .ok u ↔ ∀ a ∈ l, f a = .ok () := by
  induction l with
  | nil => simp [forAll]
  | cons a l ih =>
    simp only [forAll, bind_ok, ih, List.mem_cons, forall_eq_or_imp]
    exact ⟨fun ⟨_, h1, h2⟩ => ⟨h1, h2⟩, fun ⟨h1, h2⟩ => ⟨(), h1, h2⟩⟩

theorem checkWires_total {s : St K} {l : List Id} : ∀ {last : Option Id}, (∀ w ∈ l, ∃ e, checkWire s w = .ok e) →
    ∃ r, checkWires s l last = .ok r := by
  induction l with
  | nil => intro last _; exact ⟨last, rfl⟩
  | cons w l ih =>
    intro last h
    obtain ⟨e, he⟩ := h w (by simp)
    obtain ⟨r, h1⟩ := ih (last := e.or last) fun x hx => h x (List.mem_cons_of_mem _ hx)
    exact ⟨r, by simp only [checkWires, bind_ok]; exact ⟨e, he, h1⟩⟩

theorem checkWires_last {s : St K} {l : List Id} : ∀ {last r : Option Id}, checkWires s l last = .ok r →
    (∀ w ∈ l, ∃ e, checkWire s w = .ok e) ∧ (r = none → ∀ w ∈ l, checkWire s w = .ok none) ∧ (r = none → last = none) ∧
      ∀ v, r = some v → last = some v ∨ ∃ w ∈ l, checkWire s w = .ok (some v) := by
  induction l with
  | nil =>
    intro last r h
    simp only [checkWires, Except.ok.injEq] at h
    subst h
    exact ⟨by simp, by simp, id, fun v hv => Or.inl hv⟩
  | cons w l ih =>
    intro last r h
    simp only [checkWires, bind_ok] at h
    obtain ⟨e, he, h⟩ := h
    obtain ⟨h1, h2, h3, h4⟩ := ih h
    refine ⟨?_, fun hr => ?_, fun hr => ?_, fun v hv => ?_⟩
    · intro x hx
      rcases List.mem_cons.1 hx with rfl | hx
      · exact ⟨e, he⟩
      · exact h1 x hx
    · intro x hx
      rcases List.mem_cons.1 hx with rfl | hx
      · have := h3 hr
        cases e with
        | none => exact he
        | some e => cases this
      · exact h2 hr x hx
    · have := h3 hr
      cases e with
      | none => exact this
      | some e => cases this
    · rcases h4 v hv with h5 | ⟨x, hx, h5⟩
      · cases e with
        | none => exact Or.inl h5
        | some e => exact Or.inr ⟨w, by simp, by rw [he]; exact congrArg _ h5⟩
      · exact Or.inr ⟨x, List.mem_cons_of_mem _ hx, h5⟩

variable [Field K]

theorem Nested.checkWire {s : St K} (h : Nested s) {w : Id} (hw : w ∈ s.wid.live) :
    ∃ e, checkWire s w = .ok e ∧ (e = none → w = 0) ∧ ∀ v, e = some v → v ∈ s.sid.live := by
  obtain ⟨q, hq, hwq, ho⟩ := h.nest.pols w hw
  have hc : ∀ p, s.parent w = some p → w ∈ s.childs p := by
    intro p hp
    rcases (h.tree.up w hw p hp).2 with h1 | rfl
    · exact h1
    · exact absurd hp ((h.nest.chain p hw).ne h.nest.p0)
  have h1 : forAll (fun c => check (c ∈ s.wid.live)) (s.childs w) = .ok () := by
    rw [forAll_ok]
    intro c hcw
    exact check_ok.2 (h.tree.mem w hw c hcw).1
  have h2 : w = s.outer q ∨ w ∈ s.childs (s.outer q) := by
    rcases ho with ho | ho
    · exact Or.inl ho.symm
    · exact Or.inr (hc _ ho)
  by_cases h0 : w = 0
  · subst h0
    refine ⟨none, ?_, fun _ => rfl, by simp⟩
    simp only [Decomp.checkWire, bind_ok, check_ok, need_ok]
    refine ⟨(), h1, q, hwq, (), hq, (), h2, ?_⟩
    rw [h.nest.p0]
    simp only [bind_ok, check_ok]
    exact ⟨(), h.nest.o0.symm, trivial⟩
  · obtain ⟨p, hp, _⟩ := h.nest.up w hw h0
    obtain ⟨d, hd1, hd2, hd3⟩ := h.wires.seg w hw h0
    refine ⟨some d.1, ?_, by simp, fun v hv => by obtain rfl := Option.some.inj hv; exact hd2⟩
    simp only [Decomp.checkWire, bind_ok, check_ok, need_ok]
    refine ⟨(), h1, q, hwq, (), hq, (), h2, ?_⟩
    rw [hp]
    simp only [bind_ok, check_ok, need_ok]
    exact ⟨d, hd1, (), hd2, (), hd3, (), hc p hp, rfl⟩

theorem Nested.checkSide {s : St K} (h : Nested s) {d : HE} (hd : d.1 ∈ s.sid.live) : checkSide s d = .ok () := by
  have hL := h.inv.links
  obtain ⟨w, hw1, hw2, hw3⟩ := h.wires.lab d hd
  obtain ⟨k, hk1, hk2, _⟩ := hL.next_ok hd (by simp)
  obtain ⟨b, hb1, hb2, hb3⟩ := h.wires.seg w hw2 hw3
  have hv := hL.vlive d hd
  obtain ⟨l, hr, hp⟩ := hL.ring _ hv
  have hdl : d ∈ l := (hr.mem d).2 ⟨hd, rfl, by simp⟩
  obtain ⟨m, hm1, hm2⟩ : ∃ m, ends s (s.vtx d) = .ok m ∧ d.1 ∈ m.map Prod.fst := by
    unfold ends
    cases hps : s.pseg (s.vtx d) with
    | none =>
      have := (hp (by simp)).non hps
      rw [this] at hdl
      cases hdl
    | some x =>
      rcases (hp (by simp)).som x hps with hx | ⟨hx, _⟩
      · obtain ⟨l', h1, _, h3, _⟩ := around_ring hL.sids hr hx
        exact ⟨_, h1, List.mem_map_of_mem (h3.mem_iff.2 hdl)⟩
      · rw [hx] at hdl
        cases hdl
  simp only [Decomp.checkSide, bind_ok, check_ok, need_ok]
  exact ⟨(), hv, w, hw1, (), hw2, k, hk1, (), hk2, m, hm1, (), hm2, b, hb1, (), hb3, by
    rw [(h.wires.next_wire hd hk1).2]; exact hw1⟩

variable [LinearOrder K] {g : Geom K}

/-- `check_consistency` passes in every state of a run whose deletions of bridges leave the wires placed. -/
theorem check_passes_partial {s : St K} (h : KeepReach g s) {items : List ((Id × Id) × Id)} (hi : ItemsOf s items) :
    checkConsistency s items = .ok true := by
  have hN := h.nested
  simp only [checkConsistency, bind_ok, forAll_ok]
  obtain ⟨last, hl⟩ := checkWires_total (s := s) (l := s.wid.live) (last := none) fun w hw => by
    obtain ⟨e, he, _⟩ := hN.checkWire hw
    exact ⟨e, he⟩
  obtain ⟨_, l2, _, l4⟩ := checkWires_last hl
  refine ⟨(), fun q hq => ?_, last, hl, (), fun e he => ?_, (), fun x hx => ?_, (), fun p hp => ?_, trivial⟩
  · obtain ⟨h1, h2⟩ := hN.nest.outs q hq
    simp only [checkPoly, bind_ok, check_ok, need_ok, forAll_ok]
    refine ⟨(), h1, q, h2, (), rfl, fun p hp => ?_⟩
    obtain ⟨h3, h4⟩ := hN.free.mem q p hp
    simp only [checkFree, bind_ok, check_ok, need_ok]
    refine ⟨q, h4, (), hq, (), rfl, ?_⟩
    rw [if_pos ((hN.free.seg p h3).2 (by rw [h4]; simp))]
  · simp only [checkSegment, bind_ok, check_ok, need_ok]
    cases last with
    | none =>
      obtain ⟨w, _, hw2, hw3⟩ := hN.wires.lab (e, false) he
      obtain ⟨x, hx1, hx2, _⟩ := hN.checkWire hw2
      have := l2 rfl w hw2
      rw [hx1] at this
      exact absurd (hx2 (by injection this)) hw3
    | some e0 =>
      rcases l4 e0 rfl with h0 | ⟨w, hw, h0⟩
      · cases h0
      · obtain ⟨x, hx1, _, hx3⟩ := hN.checkWire hw
        have he0 : e0 ∈ s.sid.live := hx3 e0 (by rw [hx1] at h0; injection h0)
        refine ⟨e0, rfl, (), ?_, (), hN.checkSide he, hN.checkSide he⟩
        rw [(hN.inv.tab.exact_ _ _ e0).2 ⟨he0, rfl, rfl⟩]
        simp
  · obtain ⟨⟨a, b⟩, e⟩ := x
    obtain ⟨h1, h2, h3⟩ := (hN.inv.tab.exact_ a b e).1 ((hi _ _).1 hx)
    simp only [checkItem, bind_ok, check_ok]
    exact ⟨(), h1, by rw [h2, h3]⟩
  · unfold checkPoint
    cases hps : s.pseg p with
    | none =>
      obtain ⟨q, hq⟩ := Option.ne_none_iff_exists'.1 ((hN.free.seg p hp).1 hps)
      obtain ⟨h1, h2⟩ := hN.free.full trivial p hp q hq
      simp only [bind_ok, check_ok, need_ok]
      exact ⟨q, hq, (), h1, h2⟩
    | some d =>
      obtain ⟨h1, h2⟩ := hN.inv.links.pseg_vtx hp (by simp) hps
      simp only [bind_ok, check_ok]
      exact ⟨(), h1, h2⟩

/-! ### What an accepted state has -/

omit [Field K] [LinearOrder K] in
theorem accepted_parts {s : St K} {items : List ((Id × Id) × Id)} {b : Bool} (h : checkConsistency s items = .ok b) :
    (∀ q ∈ s.qid.live, checkPoly s q = .ok ()) ∧ (∀ w ∈ s.wid.live, ∃ e, checkWire s w = .ok e) ∧
      (∀ d : HE, d.1 ∈ s.sid.live → checkSide s d = .ok ()) ∧ (∀ x ∈ items, checkItem s x = .ok ()) ∧
      ∀ p ∈ s.pid.live, checkPoint s p = .ok () := by
  simp only [checkConsistency, bind_ok, forAll_ok] at h
  obtain ⟨_, h1, last, h2, _, h3, _, h4, _, h5, _⟩ := h
  refine ⟨h1, (checkWires_last h2).1, fun d hd => ?_, h4, h5⟩
  have := h3 d.1 hd
  simp only [checkSegment, bind_ok, check_ok, need_ok] at this
  obtain ⟨_, _, _, _, _, h6, h7⟩ := this
  obtain ⟨e, v⟩ := d
  cases v
  · exact h6
  · exact h7

omit [Field K] [LinearOrder K] in
/-- In an accepted state every walk along `next` goes on for ever over existing sides of one existing wire. -/
theorem accepted_walk {s : St K} {items : List ((Id × Id) × Id)} {b : Bool} (h : checkConsistency s items = .ok b) {d : HE}
    (hd : d.1 ∈ s.sid.live) : ∃ w ∈ s.wid.live, ∀ n : Nat, ∃ k : HE, (fun o => o.bind s.next)^[n] (some d) = some k ∧
      k.1 ∈ s.sid.live ∧ s.wire k = some w := by
  have hS := (accepted_parts h).2.2.1
  have hd' := hS d hd
  simp only [checkSide, bind_ok, check_ok, need_ok] at hd'
  obtain ⟨_, _, w, hw, _, hwl, _⟩ := hd'
  refine ⟨w, hwl, fun n => ?_⟩
  induction n with
  | zero => exact ⟨d, rfl, hd, hw⟩
  | succ n ih =>
    obtain ⟨k, h1, h2, h3⟩ := ih
    have hk := hS k h2
    simp only [checkSide, bind_ok, check_ok, need_ok] at hk
    obtain ⟨_, _, w', hw', _, _, z, hz, _, hzl, _, _, _, _, _, _, _, _, hzw⟩ := hk
    rw [h3] at hw'
    obtain rfl := Option.some.inj hw'
    refine ⟨z, ?_, hzl, hzw⟩
    rw [Function.iterate_succ_apply', h1]
    exact hz

omit [Field K] [LinearOrder K] in
/-- In an accepted state a point without a segment is a free point of exactly one polygon, other points know a segment that ends
in them. -/
theorem accepted_points {s : St K} {items : List ((Id × Id) × Id)} {b : Bool} (h : checkConsistency s items = .ok b) {p : Id}
    (hp : p ∈ s.pid.live) :
    (s.pseg p = none → ∃ q ∈ s.qid.live, p ∈ s.fpts q ∧ ∀ r ∈ s.qid.live, p ∈ s.fpts r → r = q) ∧
      (∀ d, s.pseg p = some d → d.1 ∈ s.sid.live ∧ s.vtx d = p ∧ ∀ r ∈ s.qid.live, p ∉ s.fpts r) := by
  obtain ⟨h1, _, _, _, h5⟩ := accepted_parts h
  have hq : ∀ r ∈ s.qid.live, p ∈ s.fpts r → s.ppoly p = some r ∧ s.pseg p = none := by
    intro r hr hpr
    have := h1 r hr
    simp only [checkPoly, bind_ok, check_ok, need_ok, forAll_ok] at this
    obtain ⟨_, _, _, _, _, _, h2⟩ := this
    have := h2 p hpr
    simp only [checkFree, bind_ok, check_ok, need_ok] at this
    obtain ⟨r', hr', _, _, _, rfl, h3⟩ := this
    refine ⟨hr', ?_⟩
    by_contra hh
    rw [if_neg hh] at h3
    cases h3
  have h6 := h5 p hp
  constructor
  · intro hn
    unfold checkPoint at h6
    rw [hn] at h6
    simp only [bind_ok, check_ok, need_ok] at h6
    obtain ⟨q, hq1, _, hq2, hq3⟩ := h6
    refine ⟨q, hq2, hq3, fun r hr hpr => ?_⟩
    have := (hq r hr hpr).1
    rw [hq1] at this
    exact (Option.some.inj this).symm
  · intro d hd
    unfold checkPoint at h6
    rw [hd] at h6
    simp only [bind_ok, check_ok] at h6
    obtain ⟨_, h7, h8⟩ := h6
    refine ⟨h7, h8, fun r hr hpr => ?_⟩
    rw [(hq r hr hpr).2] at hd
    cases hd

omit [Field K] [LinearOrder K] in
/-- In an accepted state polygons have different outer wires, and every wire is the outer wire of an existing polygon or a child of
it. -/
theorem accepted_polygons {s : St K} {items : List ((Id × Id) × Id)} {b : Bool} (h : checkConsistency s items = .ok b) :
    (∀ q ∈ s.qid.live, ∀ r ∈ s.qid.live, s.outer q = s.outer r → q = r) ∧
      ∀ w ∈ s.wid.live, ∃ q ∈ s.qid.live, s.wpoly w = some q ∧ (w = s.outer q ∨ w ∈ s.childs (s.outer q)) := by
  obtain ⟨h1, h2, _⟩ := accepted_parts h
  have ho : ∀ q ∈ s.qid.live, s.wpoly (s.outer q) = some q := by
    intro q hq
    have := h1 q hq
    simp only [checkPoly, bind_ok, check_ok, need_ok, forAll_ok] at this
    obtain ⟨_, _, r, hr, _, rfl, _⟩ := this
    exact hr
  refine ⟨fun q hq r hr hqr => ?_, fun w hw => ?_⟩
  · have h3 := ho q hq
    rw [hqr, ho r hr] at h3
    exact (Option.some.inj h3).symm
  · obtain ⟨e, he⟩ := h2 w hw
    simp only [checkWire, bind_ok, check_ok, need_ok] at he
    obtain ⟨_, _, q, hq, _, hql, _, hqo, _⟩ := he
    exact ⟨q, hql, hq, hqo⟩

end

/-! ### Cases -/

/-- Items of the table of segments with ids of points below 20. -/
def itemsB (s : St ℚ) : List ((Id × Id) × Id) :=
  (List.range 20).flatMap fun a => (List.range 20).filterMap fun b => (s.table (a, b)).map fun e => ((a, b), e)

theorem itemsB_ok {s : St ℚ} (h : Reach demo s) (hp : ∀ p ∈ s.pid.live, p < 20) : ItemsOf s (itemsB s) := by
  rintro ⟨a, b⟩ e
  simp only [itemsB, List.mem_flatMap, List.mem_range, List.mem_filterMap, Option.map_eq_some_iff, Prod.mk.injEq]
  constructor
  · rintro ⟨x, _, y, _, z, hz, ⟨rfl, rfl⟩, rfl⟩
    exact hz
  · intro hs
    obtain ⟨h1, h2, h3⟩ := (h.inv.tab.exact_ a b e).1 hs
    have ha := hp _ (h.inv.links.vlive (e, false) h1)
    have hb := hp _ (h.inv.links.vlive (e, true) h1)
    rw [h2] at ha
    rw [h3] at hb
    exact ⟨a, ha, b, hb, e, hs, ⟨rfl, rfl⟩, rfl⟩

theorem accept_of {s : St ℚ} {items : List ((Id × Id) × Id)} (h : (checkConsistency s items).toOption = some true) :
    checkConsistency s items = .ok true := by
  cases hc : checkConsistency s items with
  | error e => rw [hc] at h; cases h
  | ok b => rw [hc] at h; exact congrArg _ (Option.some.inj h)

example := check_passes_partial nested_keep (itemsB_ok (after_reach nested) (by decide +kernel))
example := accepted_walk (check_passes_partial nested_keep (itemsB_ok (after_reach nested) (by decide +kernel))) (d := (3, true))
  (by decide +kernel)
example := accepted_points (check_passes_partial nested_keep (itemsB_ok (after_reach nested) (by decide +kernel))) (p := 3)
  (by decide +kernel)
example := accepted_polygons (check_passes_partial nested_keep (itemsB_ok (after_reach nested) (by decide +kernel)))

/-- After the deletion of a bridge `check_consistency` fails with an `AssertionError`. -/
theorem check_fails_after_bridge : ∃ s : St ℚ, SoundReach demo s ∧ ReachBy demo (Proper demo) s ∧
    ItemsOf s (itemsB s) ∧ checkConsistency s (itemsB s) = .error .assertion := by
  have hg := after_good (l := bridge) (by decide +kernel)
  refine ⟨after bridge, hg.1, hg.2, itemsB_ok (after_reach bridge) (by decide +kernel), ?_⟩
  have h : (match checkConsistency (after bridge) (itemsB (after bridge)) with
      | .error .assertion => true
      | _ => false) = true := by decide +kernel
  split at h
  · next h1 => exact h1
  · cases h

/-- `check_consistency` accepts a reachable state with a wire whose parent was removed: line decomp.py:124 asks only for the list of
that parent. -/
theorem check_accepts_dead_parent : ∃ s : St ℚ, SoundReach demo s ∧ ReachBy demo (Proper demo) s ∧
    ItemsOf s (itemsB s) ∧ checkConsistency s (itemsB s) = .ok true ∧ 6 ∈ s.wid.live ∧ s.parent 6 = some 1 ∧ 1 ∉ s.wid.live := by
  have hg := after_good (l := onion ++ [.newSegment 0 3, .deleteSegment 12, .deleteSegment 0, .deleteSegment 1,
    .deleteSegment 2]) (by decide +kernel)
  exact ⟨_, hg.1, hg.2, itemsB_ok (after_reach _) (by decide +kernel), accept_of (by decide +kernel), by decide +kernel,
    by decide +kernel, by decide +kernel⟩

/-- `check_consistency` accepts states that no run gives: a segment missing in the table (decomp.py:127 tests another segment), and a
wire in the lists of two wires (decomp.py:115 is no assert). -/
theorem check_accepts_broken :
    (∃ s : St ℚ, checkConsistency s (itemsB s) = .ok true ∧ 0 ∈ s.sid.live ∧ s.table (s.vtx (0, false), s.vtx (0, true)) = none) ∧
      ∃ s : St ℚ, checkConsistency s (itemsB s) = .ok true ∧ 4 ∈ s.childs 3 ∧ 4 ∈ s.childs 0 ∧ s.parent 4 = some 3 :=
  ⟨⟨{ after nested with table := upd (after nested).table (0, 1) none }, accept_of (by decide +kernel), by decide +kernel,
      by decide +kernel⟩,
    ⟨{ after nested with childs := upd (after nested).childs 0 [1, 4] }, accept_of (by decide +kernel), by decide +kernel,
      by decide +kernel, by decide +kernel⟩⟩

end Verif.Decomp
