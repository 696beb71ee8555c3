import Verif.Decomp.Nested

/-!
Building a decomposition from lists of segments: `make_wire_from_segments`, `make_polygon` and `set_wire_parents`
(polygons.py:772-850), used to copy and to read back a decomposition.
-/
namespace Verif.Decomp

variable {K : Type}

/-- `Segment.point_side` (segment.py:91-98). -/
def pointSide (s : St K) (e p : Id) : Option Bool :=
  if p = s.vtx (e, false) then some false
  else if p = s.vtx (e, true) then some true
  else none

/-- The loop of `make_wire_from_segments` (polygons.py:796-803); `h` is `(last_seg, last_side)`. -/
def loadLoop (w : Id) : List Id → HE → St K → Except Err (HE × St K)
  | [], h, s => .ok (h, s)
  | e :: es, h, s =>
    if e ∈ s.sid.live then
      match pointSide s e (s.vtx h) with
      | none => .error .assertion
      | some v => loadLoop w es (e, !v) { s with
          next := upd s.next h (some (e, !v))
          wire := upd s.wire h (some w) }
    else .error .keyError

/-- The side of the first segment chosen by `make_wire_from_segments` (polygons.py:786-793). -/
def firstSide (s : St K) (e0 e1 : Id) : Except Err Bool :=
  if pointSide s e1 (s.vtx (e0, false)) ≠ none then .ok false
  else do
    check (pointSide s e1 (s.vtx (e0, true)) ≠ none)
    .ok true

/-- `make_wire_from_segments` (polygons.py:772-808). -/
def loadWire (es : List Id) (q : Id) (s : St K) : Except Err (Id × St K) :=
  match es with
  | e0 :: e1 :: es =>
    if e0 ∈ s.sid.live ∧ e1 ∈ s.sid.live then do
      let w := (newWireObj s).1
      let s := (newWireObj s).2
      let v ← firstSide s e0 e1
      let r ← loadLoop w (e1 :: es) (e0, v) s
      .ok (w, { r.2 with
        next := upd r.2.next r.1 (some (e0, v))
        wire := upd r.2.wire r.1 (some w)
        wseg := upd r.2.wseg w (some (e0, v))
        wpoly := upd r.2.wpoly w (some q) })
    else .error .keyError
  | _ => .error .assertion

/-- The first loop of `make_polygon` (polygons.py:825-827). -/
def loadHoles (q : Id) : List (List Id) → St K → Except Err (St K)
  | [], s => .ok s
  | es :: l, s => do
    let r ← loadWire es q s
    let s ← setParent r.1 (some (r.2.outer q)) r.2
    loadHoles q l s

/-- The second loop of `make_polygon` (polygons.py:828-830). -/
def loadFree (q : Id) : List Id → St K → Except Err (St K)
  | [], s => .ok s
  | p :: l, s =>
    if p ∈ s.pid.live then do
      let s ← setPolygon p q s
      loadFree q l s
    else .error .keyError

/-- The outer wire in `make_polygon` (polygons.py:819-823). -/
def loadOuter (es : List Id) (s : St K) : Except Err (Id × St K) :=
  match es with
  | [] => .ok (0, s)
  | _ => do
    let q := s.qid.append.1
    let r ← loadWire es q { s with
      qid := s.qid.append.2
      fpts := upd s.fpts q [] }
    .ok (q, { r.2 with outer := upd r.2.outer q r.1 })

/-- `make_polygon` (polygons.py:810-831). -/
def loadPolygon (outer : List Id) (holes : List (List Id)) (free : List Id) (s : St K) : Except Err (Id × St K) := do
  let r ← loadOuter outer s
  let s ← loadHoles r.1 holes r.2
  let s ← loadFree r.1 free s
  .ok (r.1, s)

/-- `Wire.neighbors` (polygon.py:172-177). -/
def neighbors (s : St K) (w : Id) : Except Err (List Id) := do
  let l ← wireAll s w
  l.mapM fun h => need (s.wire (flip h))

/-- The loop over the queue in `set_wire_parents` (polygons.py:843-850), at most `n` turns. -/
def hang (hole : Id) : Nat → List Id → St K → Except Err (St K)
  | _, [], s => .ok s
  | 0, _ :: _, _ => .error .diverges
  | n + 1, w :: l, s =>
    if s.parent w = some w then do
      let s ← setParent w (some hole) s
      let k ← neighbors s w
      hang hole n (l ++ k) s
    else hang hole n l s

/-- The loop over the holes of a polygon in `set_wire_parents` (polygons.py:841-850). -/
def hangAll (n : Nat) : List Id → St K → Except Err (St K)
  | [], s => .ok s
  | h :: l, s => do
    let k ← neighbors s h
    let s ← hang h n k s
    hangAll n l s

/-- The loop over the polygons in `set_wire_parents` (polygons.py:840-850). -/
def hangPolys (n : Nat) : List Id → St K → Except Err (St K)
  | [], s => .ok s
  | q :: l, s => do
    let s ← hangAll n (s.childs (s.outer q)) s
    hangPolys n l s

/-- `set_wire_parents` (polygons.py:835-850), with at most `n` turns of each inner loop. The children of a wire are visited in the
order of the list; Python visits the set in some order. -/
def setWireParents (n : Nat) (s : St K) : Except Err (St K) := hangPolys n s.qid.live s

/-! ### One wire -/

theorem pointSide_eq {s : St K} {k : HE} {p : Id} (hne : s.vtx (k.1, false) ≠ s.vtx (k.1, true)) (hp : s.vtx (flip k) = p) :
    pointSide s k.1 p = some (!k.2) := by
  obtain ⟨e, v⟩ := k
  unfold pointSide
  cases v
  · simp only [flip, Bool.not_false] at hp ⊢
    rw [if_neg (by rw [← hp]; exact hne.symm), if_pos hp.symm]
  · simp only [flip, Bool.not_true] at hp ⊢
    rw [if_pos hp.symm]

theorem loadLoop_eq {f : HE → Option HE} {w : Id} {l : List HE} : ∀ {h b : HE} {s : St K}, Path f h (h :: l) b → (h :: l).Nodup →
    (∀ d ∈ h :: l, d.1 ∈ s.sid.live) → (∀ e ∈ s.sid.live, s.vtx (e, false) ≠ s.vtx (e, true)) →
    (∀ d ∈ h :: l, ∀ k, f d = some k → s.vtx (flip k) = s.vtx d) →
    ∃ N L, loadLoop w (l.map Prod.fst) h s = .ok ((h :: l).getLast (by simp), { s with next := N, wire := L }) ∧
      (∀ d ∈ (h :: l).dropLast, N d = f d ∧ L d = some w) ∧
      ∀ d ∉ (h :: l).dropLast, N d = s.next d ∧ L d = s.wire d := by
  induction l with
  | nil =>
    intro h b s hp hn hl hv hf
    exact ⟨s.next, s.wire, rfl, by simp, fun d _ => ⟨rfl, rfl⟩⟩
  | cons k l ih =>
    intro h b s hp hn hl hv hf
    obtain ⟨_, y, hy, hp'⟩ := hp
    obtain rfl := path_head hp'
    have hside := pointSide_eq (hv y.1 (hl y (by simp))) (hf h (by simp) y hy)
    rw [List.nodup_cons] at hn
    obtain ⟨N, L, h1, h2, h3⟩ := ih (s := { s with next := upd s.next h (some y), wire := upd s.wire h (some w) }) hp' hn.2
      (fun d hd => hl d (by simp [hd])) hv (fun d hd => hf d (by simp [hd]))
    refine ⟨N, L, ?_, ?_, ?_⟩
    · simp only [List.map_cons, loadLoop]
      rw [if_pos (hl y (by simp)), hside]
      simp only [Bool.not_not, Prod.mk.eta]
      rw [h1]
      simp
    · intro d hd
      rw [List.dropLast_cons_of_ne_nil (by simp), List.mem_cons] at hd
      rcases hd with rfl | hd
      · have h4 : d ∉ (y :: l).dropLast := fun h => hn.1 (List.dropLast_subset _ h)
        obtain ⟨e1, e2⟩ := h3 d h4
        simp only [upd, Function.update_self] at e1 e2
        exact ⟨by rw [e1, hy], e2⟩
      · exact h2 d hd
    · intro d hd
      rw [List.dropLast_cons_of_ne_nil (by simp), List.mem_cons, not_or] at hd
      obtain ⟨e1, e2⟩ := h3 d hd.2
      simp only [upd, Function.update_of_ne hd.1] at e1 e2
      exact ⟨e1, e2⟩

/-- The list of sides starts with two different segments, or runs from the end of its first segment to the start. -/
def GoodStart : List HE → Prop
  | x :: y :: _ => x.1 ≠ y.1 ∨ x.2 = false
  | _ => False

/-- No two segments have the same ends. -/
def Single (s : St K) : Prop := ∀ e ∈ s.sid.live, ∀ e' ∈ s.sid.live, ∀ u v,
  s.vtx (e, u) = s.vtx (e', v) → s.vtx (e, !u) = s.vtx (e', !v) → e = e'

theorem firstSide_eq {s : St K} {x y : HE} (hx : x.1 ∈ s.sid.live) (hy : y.1 ∈ s.sid.live)
    (hv : ∀ e ∈ s.sid.live, s.vtx (e, false) ≠ s.vtx (e, true)) (h1 : Single s) (hg : x.1 ≠ y.1 ∨ x.2 = false)
    (hn : s.vtx (flip y) = s.vtx x) : firstSide s x.1 y.1 = .ok x.2 := by
  have hs := pointSide_eq (hv y.1 hy) hn
  obtain ⟨e, u⟩ := x
  unfold firstSide
  cases u
  · simp only at hs ⊢
    rw [if_pos (by rw [hs]; simp)]
  · simp only at hs ⊢
    have hne : e ≠ y.1 := by simpa using hg
    rw [if_neg]
    · simp [check, hs, bind, Except.bind]
    · simp only [ne_eq, not_not]
      obtain ⟨e', v⟩ := y
      have h2 : s.vtx (e, false) ≠ s.vtx (e', v) := by
        intro h
        exact hne (h1 e hx e' hy false v h (by simpa [flip] using hn.symm))
      have h3 : s.vtx (e, false) ≠ s.vtx (e', !v) := by
        intro h
        apply hv e hx
        rw [h]
        exact hn
      unfold pointSide
      cases v
      · rw [if_neg h2, if_neg (by simpa using h3)]
      · rw [if_neg (by simpa using h3), if_neg h2]

/-- `make_wire_from_segments` given the segments of a closed walk in order links its sides along the walk, and labels them with the
new wire. Nothing else is changed. -/
theorem loadWire_eq {f : HE → Option HE} {q : Id} {a : HE} {l : List HE} {s : St K} (hp : Path f a l a) (hn : l.Nodup)
    (hg : GoodStart l) (hl : ∀ d ∈ l, d.1 ∈ s.sid.live) (hv : ∀ e ∈ s.sid.live, s.vtx (e, false) ≠ s.vtx (e, true)) (h1 : Single s)
    (hf : ∀ d ∈ l, ∀ k, f d = some k → s.vtx (flip k) = s.vtx d) :
    ∃ N L, loadWire (l.map Prod.fst) q s = .ok (s.wid.append.1, { (newWireObj s).2 with
        next := N
        wire := L
        wseg := upd s.wseg s.wid.append.1 (some a)
        wpoly := upd s.wpoly s.wid.append.1 (some q) }) ∧
      (∀ d ∈ l, N d = f d ∧ L d = some s.wid.append.1) ∧ ∀ d ∉ l, N d = s.next d ∧ L d = s.wire d := by
  match l, hg with
  | x :: y :: l, hg =>
    obtain rfl := path_head hp
    have hlast := path_last (l := (a :: y :: l).dropLast) (x := (a :: y :: l).getLast (by simp)) (f := f) (a := a) (b := a)
      (by rw [List.dropLast_append_getLast]; exact hp)
    obtain ⟨_, k, hk, hp'⟩ := id hp
    obtain rfl := path_head hp'
    have hs := firstSide_eq (s := (newWireObj s).2) (hl a (by simp)) (hl k (by simp)) hv h1 hg (hf a (by simp) k hk)
    obtain ⟨N, L, h2, h3, h4⟩ := loadLoop_eq (w := s.wid.append.1) (s := (newWireObj s).2) hp hn hl hv hf
    have hmem : ∀ d, d ∈ a :: k :: l ↔ d ∈ (a :: k :: l).dropLast ∨ d = (a :: k :: l).getLast (by simp) := by
      intro d
      conv_lhs => rw [← List.dropLast_append_getLast (l := a :: k :: l) (by simp)]
      simp only [List.mem_append, List.mem_singleton]
    generalize hz : (a :: k :: l).getLast (by simp) = z at *
    refine ⟨upd N z (some a), upd L z (some s.wid.append.1), ?_, ?_, ?_⟩
    · simp only [List.map_cons] at h2 ⊢
      simp only [loadWire]
      rw [if_pos ⟨hl a (by simp), hl k (by simp)⟩, hs]
      simp only [bind, Except.bind]
      have e : (newWireObj s).1 = s.wid.append.1 := rfl
      rw [e, Prod.mk.eta, h2]
      simp [newWireObj, upd]
    · intro d hd
      by_cases hdz : d = z
      · subst hdz
        simp only [upd, Function.update_self]
        exact ⟨hlast.symm, trivial⟩
      · simp only [upd, Function.update_of_ne hdz]
        exact h3 d (((hmem d).1 hd).resolve_right hdz)
    · intro d hd
      rw [hmem, not_or] at hd
      simp only [upd, Function.update_of_ne hd.2]
      exact h4 d hd.1

end Verif.Decomp
