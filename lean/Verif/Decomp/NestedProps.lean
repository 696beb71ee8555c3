import Verif.Decomp.Change
import Verif.Decomp.Nest
import Verif.Decomp.Props
import Verif.Decomp.Demo

/-! Consequences of the nesting for runs in which the deletion of a bridge leaves the wires placed (`Placed`). -/
namespace Verif.Decomp

section
variable {K : Type} [Field K] [LinearOrder K] {g : Geom K}

/-- Runs that keep the nesting are sound. -/
theorem KeepReach.sound {s : St K} (h : KeepReach g s) : SoundReach g s := by
  induction h with
  | init => exact .init
  | @step s s' o h hV hs ih =>
    refine .step ih ⟨hV.1, ?_⟩ hs
    cases o with
    | deleteSegment e => exact h.nested.delOk hV.1
    | joinSegments mid e0 e1 => exact hV.2
    | _ => trivial

/-- Number of parents up to the root wire. -/
inductive Height (par : Id → Option Id) : Id → Nat → Prop where
  | root : Height par 0 0
  | step {w p : Id} {n : Nat} (h : par w = some p) (hp : Height par p n) : Height par w (n + 1)

theorem Height.unique {par : Id → Option Id} (h0 : par 0 = none) {w : Id} {n m : Nat} (h1 : Height par w n) (h2 : Height par w m) :
    n = m := by
  induction h1 generalizing m with
  | root =>
    cases h2 with
    | root => rfl
    | step h _ => rw [h0] at h; cases h
  | step h _ ih =>
    cases h2 with
    | root => rw [h0] at h; cases h
    | step h' hp' =>
      rw [h] at h'
      cases h'
      rw [ih hp']

theorem Up.height {par : Id → Option Id} {w : Id} (h : Up par w) : ∃ n, Height par w n := by
  induction h with
  | root => exact ⟨0, .root⟩
  | step h _ ih =>
    obtain ⟨n, hn⟩ := ih
    exact ⟨n + 1, .step h hn⟩

open Classical in
theorem Nested.forest {s : St K} (hN : Nested s) : Forest s := by
  refine { toTree := hN.tree.toTree, up := hN.tree.up, rank := ?_ }
  refine ⟨fun w => if hw : ∃ n, Height s.parent w n then Classical.choose hw else 0, fun w hw c hc => ?_⟩
  obtain ⟨n, hn⟩ := (hN.nest.chain w hw).height
  have hcn : Height s.parent c (n + 1) := .step (hN.tree.child hw hc).2 hn
  have e1 : ∃ n, Height s.parent w n := ⟨n, hn⟩
  have e2 : ∃ n, Height s.parent c n := ⟨n + 1, hcn⟩
  simp only [dif_pos e1, dif_pos e2]
  rw [Height.unique hN.nest.p0 (Classical.choose_spec e1) hn, Height.unique hN.nest.p0 (Classical.choose_spec e2) hcn]
  exact Nat.lt_succ_self n

/-- In runs whose deletions of bridges leave the wires placed the wires are a forest: `childs` and `parent` agree, nothing is inside
itself. -/
theorem KeepReach.forest {s : St K} (h : KeepReach g s) : Forest s := h.nested.forest

/-- After all runs whose deletions of bridges leave the wires placed: every wire is the outer wire of its polygon or a child of this
outer wire; every
polygon exists with its outer wire, which belongs to it; the parents of every wire lead to the root wire; the two wires on the sides
of a segment are the same, two outer wires with the same parent, or a hole and an outer wire whose parent is the hole. -/
theorem nesting_kept_partial {s : St K} (h : KeepReach g s) :
    (∀ w ∈ s.wid.live, ∃ q ∈ s.qid.live, s.wpoly w = some q ∧ (s.outer q = w ∨ (s.parent w = some (s.outer q) ∧ w ∈ s.childs (s.outer q)))) ∧
    (∀ q ∈ s.qid.live, s.outer q ∈ s.wid.live ∧ s.wpoly (s.outer q) = some q) ∧
    (∀ w ∈ s.wid.live, Relation.ReflTransGen (fun a b => s.parent a = some b) w 0) ∧
    (∀ e ∈ s.sid.live, ∃ x y p q, s.wire (e, false) = some x ∧ s.wire (e, true) = some y ∧ s.wpoly x = some p ∧ s.wpoly y = some q ∧
      p ∈ s.qid.live ∧ q ∈ s.qid.live ∧ (x = y ∨ (p ≠ q ∧ ((s.outer p = x ∧ s.outer q = y ∧ s.parent x = s.parent y) ∨
        (s.outer p = x ∧ s.outer q ≠ y ∧ s.parent x = some y) ∨ (s.outer q = y ∧ s.outer p ≠ x ∧ s.parent y = some x))))) := by
  have hN := h.nested
  refine ⟨fun w hw => ?_, hN.nest.outs, fun w hw => ?_, fun e he => ?_⟩
  · obtain ⟨q, h1, h2, h3⟩ := hN.nest.pols w hw
    refine ⟨q, h1, h2, ?_⟩
    rcases h3 with h3 | h3
    · exact Or.inl h3
    · refine Or.inr ⟨h3, (hN.tree.childs_iff (hN.nest.outs q h1).1 hw ?_).2 h3⟩
      intro hh
      rw [← hh] at h3
      exact hN.nest.self hw h3
  · have := hN.nest.chain w hw
    induction this with
    | root => exact .refl
    | step hp _ ih => exact .head hp (ih (hN.nest.par_ex hw hp))
  · obtain ⟨x, p, a1, _, _, a2, a3⟩ := hN.side (d := (e, false)) he
    obtain ⟨y, q, b1, _, _, b2, b3⟩ := hN.side (d := (e, true)) he
    refine ⟨x, y, p, q, a1, b1, a2, b2, a3, b3, ?_⟩
    by_cases hxy : x = y
    · exact Or.inl hxy
    · refine Or.inr ?_
      obtain ⟨c1, c2⟩ := hN.between he b1 a1 (fun hh => hxy hh.symm) b2 a2
      refine ⟨c1.symm, ?_⟩
      rcases c2 with ⟨d1, d2, d3⟩ | ⟨d1, d2, d3⟩ | ⟨d1, d2, d3⟩
      · exact Or.inl ⟨d2, d1, d3.symm⟩
      · exact Or.inr (Or.inr ⟨d1, d2, d3⟩)
      · exact Or.inr (Or.inl ⟨d1, d2, d3⟩)

/-- In runs whose deletions of bridges leave the wires placed `get_childs` gives the polygon and all polygons inside its outer wire. -/
theorem getChilds_kept {s : St K} (h : KeepReach g s) {q : Id} (hq : q ∈ s.qid.live) :
    ∃ N l, (∀ x, x ∈ l ↔ x = q ∨ ∃ w, Inside s (s.outer q) w ∧ s.wpoly w = some x ∧ s.outer x = w) ∧
      ∀ n, N ≤ n → getChilds s n q = .ok l := by
  have hN := h.nested
  refine getChilds_exact h.forest (hN.nest.outs q hq).1 (fun w hw => ?_)
  obtain ⟨q', _, h2, _⟩ := hN.nest.pols w hw
  rw [h2]
  simp

/-- In runs whose deletions of bridges leave the wires placed the wires are the closed walks. -/
theorem wires_kept {s : St K} (h : KeepReach g s) :
    (∀ d : HE, d.1 ∈ s.sid.live → ∃ w, s.wire d = some w ∧ w ∈ s.wid.live ∧ w ≠ 0) ∧
      (∀ d k : HE, d.1 ∈ s.sid.live → s.next d = some k → s.wire k = s.wire d) ∧
      ∀ w ∈ s.wid.live, w ≠ 0 → ∃ l, wireAll s w = .ok l ∧ l.Nodup ∧ l ≠ [] ∧
        ∀ d : HE, d ∈ l ↔ d.1 ∈ s.sid.live ∧ s.wire d = some w := wires_exact_partial h.sound

/-- In runs whose deletions of bridges leave the wires placed the polygon of every free point exists and has the point in its set. -/
theorem free_points_kept {s : St K} (h : KeepReach g s) {p q : Id} (hp : p ∈ s.pid.live) (hq : s.ppoly p = some q) :
    q ∈ s.qid.live ∧ p ∈ s.fpts q := h.nested.free.full trivial p hp q hq

/-- What `new_segment` reports in `last_polygon_change` is what happened: with `split` and `add` one new polygon, the sides of the
segment belong to the old and the new polygon, only sides of the old polygon can pass to the new one, which is beside the old one
(`split`) or in a hole of it (`add`); otherwise no polygon was added and all sides keep their polygons. -/
theorem new_change_true {s s' : St K} {a b e : Id} (h : KeepReach g s) (ha : a ∈ s.pid.live) (hb : b ∈ s.pid.live)
    (hs : newSegment g a b s = .ok (e, s')) (hno : NoSwap s') : TrueNew s s' e s'.change :=
  newSegment_true hs h.nested ha hb hno

/-- What `delete_segment` reports in `last_polygon_change` is what happened: with `join` and `remove`
one polygon is gone and its sides belong to the other one; otherwise no polygon was removed and all sides keep their polygons. -/
theorem delete_change_true {s s' : St K} {e : Id} (h : KeepReach g s) (he : e ∈ s.sid.live)
    (hs : deleteSegment g e s = .ok s') : TrueDel s s' e s'.change := deleteSegment_true hs h.nested he

/-- A segment has the same wire on both sides exactly if no other segments join its ends. -/
theorem dendrite_bridge {s : St K} (h : KeepReach g s) {e : Id} (he : e ∈ s.sid.live) :
    isDendrite s e ↔ ¬ Joined s (· ≠ e) (s.vtx (e, false)) (s.vtx (e, true)) := by
  rw [← wire_iff_bridge h.nested he]
  exact eq_comm

/-- Euler's formula with the number of connected components of the lines: points with a segment and polygons are one more than
segments and components. -/
theorem euler_components {s : St K} (h : KeepReach g s) :
    verts s + s.qid.live.length = s.sid.live.length + components s + 1 ∧ components s + s.qid.live.length = s.wid.live.length := by
  have h1 := components_wires h.nested
  have h2 := h.nested.inv.euler
  omega

end

/-! ### Cases of the theorems -/

/-- The wires of the list and those beside them. -/
def grow (s : St ℚ) (l : List Id) : List Id :=
  (s.sid.live.flatMap fun e => [(e, false), (e, true)]).foldl (fun l d =>
    match s.wire d, s.wire (flip d) with
    | some x, some y => if x ∈ l ∧ y ∉ l then y :: l else l
    | _, _ => l) l

theorem grow_ok {s : St ℚ} {w : Id} {l : List Id} (h : ∀ x ∈ l, Relation.ReflTransGen (Share s) w x) :
    ∀ x ∈ grow s l, Relation.ReflTransGen (Share s) w x := by
  unfold grow
  have hm : ∀ d ∈ s.sid.live.flatMap fun e => [(e, false), (e, true)], d.1 ∈ s.sid.live := by
    intro d hd
    obtain ⟨e, h1, h2⟩ := List.mem_flatMap.1 hd
    simp only [List.mem_cons, List.not_mem_nil, or_false] at h2
    rcases h2 with rfl | rfl <;> exact h1
  revert hm
  generalize (s.sid.live.flatMap fun e => [(e, false), (e, true)]) = m
  intro hm
  induction m generalizing l with
  | nil => exact h
  | cons d m ih =>
    rw [List.foldl_cons]
    refine ih ?_ fun k hk => hm k (List.mem_cons_of_mem _ hk)
    split
    · next x y h1 h2 =>
      split
      · next h3 =>
        intro z hz
        rcases List.mem_cons.1 hz with rfl | hz
        · exact (h x h3.1).tail ⟨d, hm d (by simp), h1, h2⟩
        · exact h z hz
      · exact h
    · exact h

/-- Every outer wire is connected with its parent, and no wire is its own parent. -/
def placedB (s : St ℚ) : Bool :=
  (s.wid.live.all fun w => decide (s.parent w ≠ some w)) && s.qid.live.all fun q => decide (q = 0) ||
    match s.parent (s.outer q) with
    | some p => decide (p ∈ (grow s)^[s.wid.live.length] [s.outer q])
    | none => true

theorem placedB_ok {s : St ℚ} (h : placedB s = true) : Placed s := by
  unfold placedB at h
  rw [Bool.and_eq_true] at h
  obtain ⟨h1, h2⟩ := h
  refine ⟨fun w hw => of_decide_eq_true (List.all_eq_true.1 h1 w hw), fun q hq h0 p hp => ?_⟩
  have h3 := List.all_eq_true.1 h2 q hq
  rw [hp, Bool.or_eq_true] at h3
  have h4 := of_decide_eq_true (h3.resolve_left fun hh => h0 (of_decide_eq_true hh))
  have key : ∀ n, ∀ x ∈ (grow s)^[n] [s.outer q], Relation.ReflTransGen (Share s) (s.outer q) x := by
    intro n
    induction n with
    | zero =>
      intro x hx
      rw [List.mem_singleton.1 hx]
    | succ n ih =>
      rw [Function.iterate_succ_apply']
      exact grow_ok ih
  exact key _ p h4

/-- Calls that keep the nesting. -/
def keepB (s : St ℚ) (o : Op ℚ) : Bool :=
  validB s o && match o with
  | .addPoint _ q => decide (q ∈ s.qid.live)
  | .newSegment a b =>
    match newSegment demo a b s with
    | .ok r => r.2.wid.live.all fun x => match r.2.parent x with
      | some y => decide (x = y) || decide (r.2.parent y ≠ some x)
      | none => true
    | .error _ => false
  | .deleteSegment e => decide (s.wire (e, true) ≠ s.wire (e, false)) || decide (s.next (e, true) = some (e, false)) ||
      decide (s.next (e, false) = some (e, true)) || match deleteSegment demo e s with
        | .ok r => placedB r
        | .error _ => false
  | .joinSegments mid e0 e1 => [false, true].all fun v => decide (s.vtx (e0, v) ≠ mid) || decide (s.vtx (e1, v) ≠ mid)
  | _ => true

theorem keepB_ok {s s' : St ℚ} {o : Op ℚ} (h : keepB s o = true) (hs : step demo s o = .ok s') : Keeps s s' o := by
  unfold keepB at h
  rw [Bool.and_eq_true] at h
  obtain ⟨h1, h2⟩ := h
  refine ⟨validB_ok h1, ?_⟩
  cases o with
  | addPoint xy q => exact of_decide_eq_true h2
  | newSegment a b =>
    simp only [step, bind_ok, Except.ok.injEq] at hs
    obtain ⟨r, h3, h4⟩ := hs
    simp only [h3] at h2
    intro x hx y _ hne hp hq
    rw [← h4] at hx hp hq
    have := List.all_eq_true.1 h2 x hx
    simp only [hp, Bool.or_eq_true, decide_eq_true_eq] at this
    rcases this with k | k
    · exact hne k
    · exact k hq
  | deleteSegment e =>
    intro hh hn
    simp only [Bool.or_eq_true, decide_eq_true_eq] at h2
    rcases h2 with ((k | k) | k) | k
    · exact absurd hh k
    · exact absurd k (hn true)
    · exact absurd k (hn false)
    · simp only [step] at hs
      rw [hs] at k
      exact placedB_ok k
  | joinSegments mid e0 e1 =>
    intro v hv
    have := List.all_eq_true.1 h2 v (by cases v <;> simp)
    simp only [Bool.or_eq_true, decide_eq_true_eq] at this
    exact this.resolve_left fun hh => hh hv
  | _ => trivial

theorem tested_keep {l : List (Op ℚ)} : ∀ {s s' : St ℚ}, KeepReach demo s → tested keepB l s = some s' →
    KeepReach demo s' ∧ tested validB l s = some s' := by
  induction l with
  | nil => intro s s' h hs; exact ⟨Option.some.inj hs ▸ h, hs⟩
  | cons o l ih =>
    intro s s' h hs
    simp only [tested] at hs ⊢
    split at hs
    · next ht =>
      have hv : validB s o = true := by
        unfold keepB at ht
        exact (Bool.and_eq_true _ _ ▸ ht).1
      rw [if_pos hv]
      split at hs
      · next s1 h1 => exact ih (.step h (keepB_ok ht h1) h1) hs
      · cases hs
    · cases hs

theorem after_keep {l : List (Op ℚ)} (h : (tested keepB l init).isSome = true) : KeepReach demo (after l) := by
  obtain ⟨s, hs⟩ := Option.isSome_iff_exists.1 h
  obtain ⟨h1, h2⟩ := tested_keep .init hs
  unfold after
  rw [h2]
  exact h1

/-- A triangle with a triangle inside, then a segment from the inner one to the outer one, a second one, and the first one deleted;
then the inner triangle loses one side. -/
def nested : List (Op ℚ) :=
  [.addPoint (0, 0) 0, .addPoint (20, 0) 0, .addPoint (0, 20) 0, .newSegment 0 1, .newSegment 1 2, .newSegment 2 0,
    .addPoint (2, 2) 1, .addPoint (6, 2) 1, .addPoint (2, 6) 1, .newSegment 3 4, .newSegment 4 5, .newSegment 5 3]

theorem nested_keep : KeepReach demo (after nested) := after_keep (by decide +kernel)

/-- The polygon inside is in a hole of the polygon around it. -/
theorem nested_nesting : nesting (after nested) = [(0, none, [1], some 0), (1, some 0, [2], some 0), (2, some 1, [3], some 1),
    (3, some 2, [4], some 1), (4, some 3, [], some 2)] := by decide +kernel

example : (after nested).change = .add 1 2 := by decide +kernel

example := nesting_kept_partial nested_keep
example := getChilds_kept nested_keep (q := 1) (by decide +kernel)
example := wires_kept nested_keep
example := nesting_kept_partial (after_keep (l := house) (by decide +kernel))

/-- A connection of the triangles and a second one that splits the polygon between them. -/
example : KeepReach demo (after (nested ++ [.newSegment 0 3, .newSegment 1 4])) ∧
    (after (nested ++ [.newSegment 0 3])).change = .shape (some 1) ∧
    (after (nested ++ [.newSegment 0 3, .newSegment 1 4])).change = .split 1 3 :=
  ⟨after_keep (by decide +kernel), by decide +kernel, by decide +kernel⟩

/-- Deletions that join polygons: of a connection, and of a side of the inner triangle. -/
example : KeepReach demo (after (nested ++ [.newSegment 0 3, .newSegment 1 4, .deleteSegment 6])) ∧
    (after (nested ++ [.newSegment 0 3, .newSegment 1 4, .deleteSegment 6])).change = .join 3 1 ∧
    (after (nested ++ [.deleteSegment 3])).change = .remove 1 2 :=
  ⟨after_keep (by decide +kernel), by decide +kernel, by decide +kernel⟩

/-- The deletion of the connection of the triangles, a bridge. -/
theorem nested_cut : KeepReach demo (after (nested ++ [.newSegment 0 3, .deleteSegment 6])) := after_keep (by decide +kernel)

example : (after (nested ++ [.newSegment 0 3])).sid.live = [0, 1, 2, 3, 4, 5, 6] ∧ isDendrite (after (nested ++ [.newSegment 0 3])) 6 ∧
    (after (nested ++ [.newSegment 0 3, .deleteSegment 6])).change = .shape (some 1) := by decide +kernel

example := nesting_kept_partial nested_cut
example := delete_change_true (g := demo) (after_keep (l := nested ++ [.newSegment 0 3]) (by decide +kernel)) (e := 6) (by decide +kernel)
  (s' := after (nested ++ [.newSegment 0 3, .deleteSegment 6]))

/-- A line of three segments without the middle one. -/
def chain3 : List (Op ℚ) := [.addPoint (0, 0) 0, .addPoint (1, 0) 0, .addPoint (2, 0) 0, .addPoint (3, 1) 0, .newSegment 0 1,
  .newSegment 1 2, .newSegment 2 3]

example : KeepReach demo (after chain3) ∧ (after chain3).qid.live = [0] ∧
    nesting (after (chain3 ++ [.deleteSegment 1])) = [(0, none, [1, 2], some 0), (1, some 0, [], some 0), (2, some 0, [], some 0)] :=
  ⟨after_keep (by decide +kernel), by decide +kernel, by decide +kernel⟩

/-- The connection of the triangles is a bridge, the sides of the triangles are not. -/
example : ¬ Joined (after (nested ++ [.newSegment 0 3])) (· ≠ 6) 0 3 := by
  have := (dendrite_bridge (after_keep (l := nested ++ [.newSegment 0 3]) (by decide +kernel)) (e := 6) (by decide +kernel)).1 (by decide +kernel)
  rwa [show (after (nested ++ [.newSegment 0 3])).vtx (6, false) = 0 by decide +kernel,
    show (after (nested ++ [.newSegment 0 3])).vtx (6, true) = 3 by decide +kernel] at this

example : Joined (after nested) (· ≠ 0) 0 1 := by
  have := not_not.1 fun hh => absurd ((dendrite_bridge nested_keep (e := 0) (by decide +kernel)).2 hh) (by decide +kernel)
  rwa [show (after nested).vtx (0, false) = 0 by decide +kernel, show (after nested).vtx (0, true) = 1 by decide +kernel] at this

/-- Two triangles: two components. -/
example : components (after nested) = 2 ∧ components (after (nested ++ [.newSegment 0 3])) = 1 := by
  constructor
  · have := (euler_components nested_keep).2
    rw [show (after nested).qid.live.length = 3 by decide +kernel, show (after nested).wid.live.length = 5 by decide +kernel] at this
    omega
  · have := (euler_components (after_keep (l := nested ++ [.newSegment 0 3]) (by decide +kernel))).2
    rw [show (after (nested ++ [.newSegment 0 3])).qid.live.length = 3 by decide +kernel,
      show (after (nested ++ [.newSegment 0 3])).wid.live.length = 4 by decide +kernel] at this
    omega

end Verif.Decomp
