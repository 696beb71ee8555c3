import Verif.Decomp.Reload
import Verif.Decomp.NestedProps

/-!
Copying of decompositions: the lists can always be given so that the copy is right, and the lists of `wire.segments()` may fail.
-/
namespace Verif.Decomp

variable {K : Type} [Field K]

/-- `make_segment` for the pairs of a list (merge.py:21-23, polygons.py:759-770); the box for the lookup is not modelled. -/
def loadSegs : List (Id × Id) → St K → Except Err (St K)
  | [], s => .ok s
  | x :: l, s =>
    if x.1 ∈ s.pid.live ∧ x.2 ∈ s.pid.live then do
      let r ← makeSegment x.1 x.2 s
      loadSegs l r.2
    else .error .keyError

/-- A new decomposition with the points of a given one (merge.py:13-18). -/
def loadPoints (s : St K) : St K := { (init : St K) with
  pid := s.pid
  xy := s.xy }

/-- The segments made are numbered from zero, have the ends given, and no wire; points of segments are marked. -/
structure Segs (s t : St K) (l : List (Id × Id)) : Prop where
  pid : t.pid = s.pid
  sid : t.sid = { nxt := l.length, free := [], live := List.range l.length }
  vtx : ∀ i, (h : i < l.length) → t.vtx (i, false) = l[i].1 ∧ t.vtx (i, true) = l[i].2
  wid : t.wid = (init : St K).wid
  qid : t.qid = (init : St K).qid
  parent : t.parent = (init : St K).parent
  childs : t.childs = (init : St K).childs
  outer : t.outer = (init : St K).outer
  wpoly : t.wpoly = (init : St K).wpoly
  fpts : t.fpts = (init : St K).fpts
  ppoly : ∀ p, t.ppoly p = none
  pseg : ∀ p, t.pseg p ≠ none ↔ ∃ x ∈ l, x.1 = p ∨ x.2 = p

theorem Segs.start (s : St K) : Segs s (loadPoints s) [] :=
  ⟨rfl, rfl, by simp, rfl, rfl, rfl, rfl, rfl, rfl, rfl, fun _ => rfl, by simp [loadPoints, init]⟩

theorem joinSegment_none {t : St K} {d : HE} (h : ∀ p, t.ppoly p = none) : ∃ P, joinSegment d t = .ok { t with pseg := P } ∧
    ∀ p, P p ≠ none ↔ t.pseg p ≠ none ∨ p = t.vtx d := by
  unfold joinSegment
  cases hs : t.pseg (t.vtx d) with
  | some x =>
    refine ⟨t.pseg, by simp only [hs], fun p => ?_⟩
    constructor
    · exact Or.inl
    · rintro (h1 | rfl)
      · exact h1
      · rw [hs]; simp
  | none =>
    refine ⟨upd t.pseg (t.vtx d) (some d), ?_, fun p => ?_⟩
    · simp only [hs, leavePoly, h, bind, Except.bind]
      have : upd t.ppoly (t.vtx d) none = t.ppoly := by
        funext p
        by_cases hp : p = t.vtx d
        · rw [hp]; simp [upd, h]
        · simp [upd, hp]
      rw [this]
    · by_cases hp : p = t.vtx d
      · rw [hp]; simp [upd]
      · simp [upd, hp]

theorem Segs.add {s t : St K} {l : List (Id × Id)} (h : Segs s t l) {x : Id × Id} (hx : x.1 ≠ x.2) :
    ∃ e t', makeSegment x.1 x.2 t = .ok (e, t') ∧ Segs s t' (l ++ [x]) := by
  have ha : t.sid.append = (l.length, { nxt := l.length + 1, free := [], live := List.range l.length ++ [l.length] }) := by
    rw [h.sid]; rfl
  unfold makeSegment
  simp only [check, if_pos hx, bind, Except.bind]
  rw [ha]
  simp only
  obtain ⟨P, e1, h1⟩ := joinSegment_none (d := (l.length, false)) (t := { t with
    sid := { nxt := l.length + 1, free := [], live := List.range l.length ++ [l.length] }
    vtx := upd (upd t.vtx (l.length, false) x.1) (l.length, true) x.2
    wire := upd (upd t.wire (l.length, false) none) (l.length, true) none
    next := upd (upd t.next (l.length, false) none) (l.length, true) none
    vec := upd t.vec l.length ((t.xy x.2).1 - (t.xy x.1).1, (t.xy x.2).2 - (t.xy x.1).2) }) h.ppoly
  rw [e1]
  simp only
  obtain ⟨P', e2, h2⟩ := joinSegment_none (d := (l.length, true)) (t := { t with
    sid := { nxt := l.length + 1, free := [], live := List.range l.length ++ [l.length] }
    vtx := upd (upd t.vtx (l.length, false) x.1) (l.length, true) x.2
    wire := upd (upd t.wire (l.length, false) none) (l.length, true) none
    next := upd (upd t.next (l.length, false) none) (l.length, true) none
    vec := upd t.vec l.length ((t.xy x.2).1 - (t.xy x.1).1, (t.xy x.2).2 - (t.xy x.1).2)
    pseg := P }) h.ppoly
  rw [e2]
  refine ⟨_, _, rfl, h.pid, ?_, ?_, h.wid, h.qid, h.parent, h.childs, h.outer, h.wpoly, h.fpts, h.ppoly, fun p => ?_⟩
  · simp [List.range_succ]
  · intro i hi
    rw [List.length_append, List.length_singleton] at hi
    by_cases hil : i = l.length
    · subst hil
      simp [upd]
    · have : i < l.length := by omega
      have h3 : ∀ b c, ((i, b) : HE) ≠ (l.length, c) := fun b c e => hil (Prod.mk.inj e).1
      simp only [upd, Function.update_of_ne (h3 _ _)]
      rw [List.getElem_append_left this]
      exact h.vtx i this
  · rw [h2, h1, h.pseg]
    simp [upd, or_assoc, or_and_right, exists_or, eq_comm]

theorem loadSegs_ok {s : St K} {m : List (Id × Id)} : ∀ {t : St K} {l : List (Id × Id)}, Segs s t l →
    (∀ x ∈ m, x.1 ∈ s.pid.live ∧ x.2 ∈ s.pid.live ∧ x.1 ≠ x.2) → ∃ t', loadSegs m t = .ok t' ∧ Segs s t' (l ++ m) := by
  induction m with
  | nil => exact fun {t l} h _ => ⟨t, rfl, by simpa using h⟩
  | cons x m ih =>
    intro t l h hm
    obtain ⟨h1, h2, h3⟩ := hm x (by simp)
    obtain ⟨e, t1, e1, h4⟩ := h.add h3
    obtain ⟨t', e2, h5⟩ := ih h4 (fun y hy => hm y (by simp [hy]))
    refine ⟨t', ?_, by simpa using h5⟩
    simp only [loadSegs]
    rw [if_pos (by rw [h.pid]; exact ⟨h1, h2⟩), e1]
    exact e2

/-- The pairs of ends of the segments. -/
def endPairs (s : St K) : List (Id × Id) := s.sid.live.map fun e => (s.vtx (e, false), s.vtx (e, true))

/-- The first two loops of `deep_copy` give the same points and segments when the segments are numbered from zero without gaps. -/
theorem loadSegs_blank {s : St K} (hN : Nested s) (hr : s.sid.live = List.range s.sid.live.length) :
    ∃ t, loadSegs (endPairs s) (loadPoints s) = .ok t ∧ Blank s t := by
  have hL := hN.inv.links
  obtain ⟨t, e1, h⟩ := loadSegs_ok (Segs.start s) (m := endPairs s) (fun x hx => by
    obtain ⟨e, he, rfl⟩ := List.mem_map.1 hx
    exact ⟨hL.vlive (e, false) he, hL.vlive (e, true) he, hL.vne e he⟩)
  rw [List.nil_append] at h
  have hlen : (endPairs s).length = s.sid.live.length := by simp [endPairs]
  have hget : ∀ i, i ∈ s.sid.live → ∃ h : i < (endPairs s).length, (endPairs s)[i] = (s.vtx (i, false), s.vtx (i, true)) := by
    intro i hi
    rw [hr, List.mem_range] at hi
    refine ⟨by rw [hlen]; exact hi, ?_⟩
    simp only [endPairs, List.getElem_map]
    have : s.sid.live[i] = i := by
      have h2 : ∀ (m : List Id) (h : m = List.range s.sid.live.length) (hi : i < m.length), m[i] = i := by
        rintro _ rfl hi
        simp
      exact h2 _ hr _
    rw [this]
  refine ⟨t, e1, ⟨by rw [h.pid], ?_, ?_, ?_, ?_, ?_, ?_, ?_, ?_, ?_, ?_, ?_, ?_, fun p _ => h.ppoly p, ?_⟩⟩
  · rw [h.sid, hlen, ← hr]
  · rw [h.sid]
    refine ⟨List.nodup_range, by simp, by simp, by simp, by simp⟩
  · rintro ⟨i, b⟩ hi
    obtain ⟨h1, h2⟩ := hget i hi
    have := h.vtx i h1
    rw [h2] at this
    cases b
    · exact this.1
    · exact this.2
  · rw [h.wid]
    refine ⟨by simp [init], by simp [init], by simp [init], by simp [init], by simp [init]⟩
  · rw [h.wid]; rfl
  · rw [h.qid]
    refine ⟨by simp [init], by simp [init], by simp [init], by simp [init], by simp [init]⟩
  · rw [h.qid]; rfl
  · rw [h.parent]; rfl
  · rw [h.childs]; rfl
  · rw [h.outer]; rfl
  · rw [h.wpoly]; rfl
  · rw [h.fpts]; rfl
  · intro p hp
    rw [← not_iff_not]
    have := h.pseg p
    rw [ne_eq] at this
    rw [this]
    obtain ⟨l, hl, hps⟩ := hL.ring p hp
    have hps := hps (by simp)
    constructor
    · rintro ⟨x, hx, hxp⟩ hn
      obtain ⟨e, he, rfl⟩ := List.mem_map.1 hx
      have hl0 := hps.non hn
      subst hl0
      rcases hxp with k | k
      · exact absurd ((hl.mem (e, false)).2 ⟨he, k, by simp⟩) (by simp)
      · exact absurd ((hl.mem (e, true)).2 ⟨he, k, by simp⟩) (by simp)
    · intro hn
      obtain ⟨d, hd⟩ := Option.ne_none_iff_exists'.1 hn
      obtain ⟨k1, k2⟩ : d.1 ∈ s.sid.live ∧ s.vtx d = p := by
        rcases hps.som d hd with k | k
        · exact ⟨((hl.mem d).1 k).1, ((hl.mem d).1 k).2.1⟩
        · exact absurd k.2.1 (by simp)
      refine ⟨_, List.mem_map.2 ⟨d.1, k1, rfl⟩, ?_⟩
      obtain ⟨e, b⟩ := d
      cases b
      · exact Or.inl k2
      · exact Or.inr k2

/-- Each wire has a side to start its list from. -/
theorem good_list {s : St K} (hN : Nested s) {w : Id} {l : List HE} (hc : CycOf s w l) : ∃ l', CycOf s w l' ∧ GoodStart l' := by
  have hL := hN.inv.links
  obtain ⟨a, ha⟩ := hc.path
  have hnx : ∀ x ∈ l, ∃ y ∈ l, s.next x = some y ∧ y ≠ x := by
    intro x hx
    obtain ⟨y, h1, h2⟩ := path_succ ha hx
    refine ⟨y, h1, h2, ?_⟩
    rintro rfl
    obtain ⟨k, k1, _, k3, _⟩ := hL.next_ok ((hc.mem y).1 hx).1 (by simp)
    rw [h2] at k1
    cases k1
    exact hL.flip_ne ((hc.mem y).1 hx).1 k3
  have hfrom : ∀ x ∈ l, ∀ y, s.next x = some y → y ≠ x → ∃ l', CycOf s w (x :: y :: l') := by
    intro x hx y hy hne
    obtain ⟨l', h1, h2, h3⟩ := path_from ha hc.nd hx
    obtain ⟨_, y', h4, h5⟩ := id h1
    rw [hy] at h4
    cases h4
    cases l' with
    | nil => exact absurd h5 hne
    | cons z l' =>
      obtain rfl := path_head h5
      exact ⟨l', by simp, h3, ⟨x, h1⟩, fun d => by rw [h2.mem_iff, hc.mem]⟩
  by_cases hd : ∃ x ∈ l, ∃ y, s.next x = some y ∧ x.1 ≠ y.1
  · obtain ⟨x, hx, y, hy, hne⟩ := hd
    obtain ⟨l', hl'⟩ := hfrom x hx y hy (fun e => hne (by rw [e]))
    exact ⟨_, hl', Or.inl hne⟩
  · have hall : ∀ x ∈ l, ∀ y, s.next x = some y → x.1 = y.1 := by
      intro x hx y hy
      by_contra hne
      exact hd ⟨x, hx, y, hy, hne⟩
    have : ∃ x ∈ l, x.2 = false := by
      obtain ⟨x, l0, rfl⟩ := List.exists_cons_of_ne_nil hc.ne
      cases hx2 : x.2 with
      | false => exact ⟨x, by simp, hx2⟩
      | true =>
        obtain ⟨y, y1, y2, y3⟩ := hnx x (by simp)
        refine ⟨y, y1, ?_⟩
        have := hall x (by simp) y y2
        by_contra hy2
        rw [Bool.not_eq_false] at hy2
        exact y3 (Prod.ext this.symm (by rw [hy2, hx2]))
    obtain ⟨x, hx, hx2⟩ := this
    obtain ⟨y, _, hy, hne⟩ := hnx x hx
    obtain ⟨l', hl'⟩ := hfrom x hx y hy hne
    exact ⟨_, hl', Or.inr hx2⟩

theorem good_lists {s : St K} (hN : Nested s) : ∃ L : Id → List HE, ∀ w ∈ s.wid.live, w ≠ 0 → CycOf s w (L w) ∧ GoodStart (L w) := by
  classical
  refine ⟨fun w => if h : w ∈ s.wid.live ∧ w ≠ 0 then (good_list hN (hN.wires.cyc w h.1 h.2).choose_spec).choose else [], fun w hw h0 => ?_⟩
  simp only [dif_pos (show w ∈ s.wid.live ∧ w ≠ 0 from ⟨hw, h0⟩)]
  exact (good_list hN (hN.wires.cyc w hw h0).choose_spec).choose_spec

section order
variable [LinearOrder K] {g : Geom K}

/-- Every decomposition made by calls that keep the nesting is copied by `make_polygon` for each polygon, in any order, and
`set_wire_parents`, into a decomposition with its points and segments: links, wires, polygons, nesting and free points are the same up
to the ids of wires and polygons. The lists of the segments of the wires may start anywhere with a side that meets `GoodStart`, and
there is such a side for each wire. -/
theorem copy_kept {s : St K} (h : KeepReach g s) :
    (∃ L : Id → List HE, ∀ w ∈ s.wid.live, w ≠ 0 → CycOf s w (L w) ∧ GoodStart (L w)) ∧
    ∀ (L : Id → List HE) (l : List Id) (t : St K), (∀ w ∈ s.wid.live, w ≠ 0 → CycOf s w (L w) ∧ GoodStart (L w)) → Blank s t →
      l.Perm s.qid.live → ∃ t1 t2 f k, loadAll (l.map (polyData s L)) t = .ok t1 ∧
        (∃ n0, ∀ n ≥ n0, setWireParents n t1 = .ok t2) ∧ Copy s t2 f k :=
  ⟨good_lists h.nested, fun _ _ _ hL hB hl =>
    let ⟨t1, t2, f, k, h1, h2, h3, _⟩ := reload h.nested hL hB hl
    ⟨t1, t2, f, k, h1, h2, h3⟩⟩

/-- The same from an empty decomposition, when the segments are numbered from zero without gaps. -/
theorem copy_from_scratch {s : St K} (h : KeepReach g s) (hr : s.sid.live = List.range s.sid.live.length) {L : Id → List HE}
    (hL : ∀ w ∈ s.wid.live, w ≠ 0 → CycOf s w (L w) ∧ GoodStart (L w)) :
    ∃ t t1 t2 f k, loadSegs (endPairs s) (loadPoints s) = .ok t ∧ loadAll (s.qid.live.map (polyData s L)) t = .ok t1 ∧
      (∃ n0, ∀ n ≥ n0, setWireParents n t1 = .ok t2) ∧ Copy s t2 f k := by
  obtain ⟨t, e1, h1⟩ := loadSegs_blank h.nested hr
  obtain ⟨t1, t2, f, k, e2, e3, h2, _⟩ := reload h.nested hL h1 (.refl _)
  exact ⟨t, t1, t2, f, k, e1, e2, e3, h2⟩

end order

/-! ### Cases -/

/-- The list of `wire.segments()` for each wire. -/
def ownLists (s : St K) (w : Id) : List HE := (wireAll s w).toOption.getD []

theorem ownLists_cyc {s : St K} (hN : Nested s) {w : Id} (hw : w ∈ s.wid.live) (h0 : w ≠ 0) : CycOf s w (ownLists s w) := by
  obtain ⟨l, hc⟩ := hN.wires.cyc w hw h0
  obtain ⟨d, d1, d2, d3⟩ := hN.wires.seg w hw h0
  obtain ⟨a, ha⟩ := hc.path
  obtain ⟨l', h1, h2, h3⟩ := path_from ha hc.nd ((hc.mem d).2 ⟨d2, d3⟩)
  have : wireAll s w = .ok (d :: l') := by
    unfold wireAll
    rw [if_neg (hN.wires.par w hw h0), d1]
    refine walkGo_ok h1 (by simp) (List.nodup_cons.1 h3).1 (List.nodup_cons.1 h3).1 ?_
    have := length_le_two_mul h3 (fun k hk => hN.inv.links.sids.lt _ ((hc.mem k).1 (h2.mem_iff.1 hk)).1)
    unfold fuel
    omega
  unfold ownLists
  rw [this]
  exact ⟨by simp [Except.toOption], h3, ⟨d, h1⟩, fun x => by simp only [Except.toOption, Option.getD]; rw [h2.mem_iff, hc.mem]⟩

/-- The copy made with the lists of `wire.segments()`. -/
def deepCopy (n : Nat) (s : St K) : Except Err (St K) := do
  let t ← loadSegs (endPairs s) (loadPoints s)
  let t ← loadAll (s.qid.live.map (polyData s (ownLists s))) t
  setWireParents n t

/-- The triangle in a triangle and its copy. -/
example : ((deepCopy 9 (after nested)).toOption.any fun t => nesting t = nesting (after nested) && links t = links (after nested) &&
    sides t = sides (after nested)) = true := by
  decide +kernel

example := copy_kept nested_keep
example := copy_from_scratch nested_keep (by decide +kernel) (good_lists nested_keep.nested).choose_spec

/-- Two segments at a point, and a segment that was connected to it. -/
def tee : List (Op ℚ) := [.addPoint (0, 0) 0, .addPoint (1, 0) 0, .addPoint (0, 1) 0, .addPoint (-1, 0) 0, .addPoint (-2, 0) 0,
  .newSegment 0 1, .newSegment 0 2, .newSegment 3 4, .newSegment 0 3, .deleteSegment 3]

theorem tee_keep : KeepReach demo (after tee) := after_keep (by decide +kernel)

example : (wireAll (after tee) 2).toOption = some [(1, true), (1, false), (0, true), (0, false)] := by decide +kernel

/-- With the list of `wire.segments()`, which starts at the side stored in the wire, the copy may fail with an `AssertionError`: the
list starts with both sides of a segment at a free end, and `make_wire_from_segments` takes the wrong side first (polygons.py:786-793). -/
theorem copy_fails : ∃ s : St ℚ, KeepReach demo s ∧ s.sid.live = List.range s.sid.live.length ∧
    (∀ w ∈ s.wid.live, w ≠ 0 → CycOf s w (ownLists s w)) ∧ ∀ n, deepCopy n s = .error .assertion := by
  refine ⟨after tee, tee_keep, by decide +kernel, fun w hw h0 => ?_, fun n => ?_⟩
  · exact ownLists_cyc tee_keep.nested hw h0
  · have h : (match loadSegs (endPairs (after tee)) (loadPoints (after tee)) with
        | .error _ => false
        | .ok t => match loadAll ((after tee).qid.live.map (polyData (after tee) (ownLists (after tee)))) t with
          | .error .assertion => true
          | _ => false) = true := by decide +kernel
    unfold deepCopy
    split at h
    · cases h
    · next h1 =>
      split at h
      · next h2 =>
        rw [h1]
        simp only [bind, Except.bind]
        rw [h2]
      · cases h

/-- `make_wire_from_segments` does not check that the segments close (polygons.py:804): two segments in a line are linked into a wire
whose last side is followed by a side that starts elsewhere. -/
theorem load_open_wire : ∃ (s : St ℚ) (w : Id) (t : St ℚ), loadSegs [(0, 1), (1, 2)] (loadPoints (after chain3)) = .ok s ∧
    loadWire [0, 1] 0 s = .ok (w, t) ∧ t.next (1, true) = some (0, true) ∧ t.vtx (flip (0, true)) ≠ t.vtx (1, true) := by
  have h : (match loadSegs [(0, 1), (1, 2)] (loadPoints (after chain3)) with
      | .error _ => false
      | .ok s => match loadWire [0, 1] 0 s with
        | .error _ => false
        | .ok (_, t) => decide (t.next (1, true) = some (0, true) ∧ t.vtx (flip (0, true)) ≠ t.vtx (1, true))) = true := by
    decide +kernel
  split at h
  · cases h
  · next h1 =>
    split at h
    · cases h
    · next h2 => exact ⟨_, _, _, h1, h2, (of_decide_eq_true h).1, (of_decide_eq_true h).2⟩

end Verif.Decomp
