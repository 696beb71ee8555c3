import Verif.Plane.Ray
import Verif.Decomp.Props

/-! `Wire.contains_point` in the states of sound runs: the parity of crossings. -/

namespace Verif.Plane
open Verif.Decomp

section
variable {K : Type} [Field K] [LinearOrder K] [IsStrictOrderedRing K]

/-- The segment of a side as an edge in the direction of the side. -/
def edgeOf (s : St K) (d : HE) : (K × K) × (K × K) := (s.xy (s.vtx (d.1, !d.2)), s.xy (s.vtx d))

omit [Field K] [LinearOrder K] [IsStrictOrderedRing K] in
theorem walk_of_path {s : St K} : ∀ {l : List HE} {a b : HE}, Path s.next a l b →
    (∀ d ∈ l, ∀ k, s.next d = some k → s.vtx (k.1, !k.2) = s.vtx d) →
    Walk (l.map (edgeOf s)) ∧ (l.map (edgeOf s)).head? = l.head?.map (edgeOf s) ∧ (l ≠ [] → l.head? = some a) ∧
      ∀ z ∈ l.getLast?, (edgeOf s z).2 = (edgeOf s b).1
  | [], a, b, _, _ => by simp [Walk]
  | [x], a, b, hp, hv => by
    obtain ⟨rfl, k, hk, rfl⟩ := hp
    refine ⟨trivial, rfl, fun _ => rfl, fun z hz => ?_⟩
    cases hz
    simp only [edgeOf, hv _ List.mem_cons_self _ hk, List.getLast_singleton]
  | x :: y :: l, a, b, hp, hv => by
    obtain ⟨rfl, k, hk, hp⟩ := hp
    obtain ⟨h1, _, h3, h4⟩ := walk_of_path hp (fun d hd => hv d (List.mem_cons_of_mem _ hd))
    have hyk : y = k := by have := h3 (by simp); simpa using this
    subst hyk
    refine ⟨⟨?_, h1⟩, rfl, fun _ => rfl, fun z hz => h4 z (by rw [List.getLast?_cons_cons] at hz; exact hz)⟩
    simp only [edgeOf, hv _ List.mem_cons_self _ hk]

omit [Field K] [LinearOrder K] [IsStrictOrderedRing K] in
/-- The sides of a wire are a closed walk in the plane. -/
theorem closed_of_path {s : St K} {l : List HE} {a : HE} (hp : Path s.next a l a)
    (hv : ∀ d ∈ l, ∀ k, s.next d = some k → s.vtx (k.1, !k.2) = s.vtx d) : ClosedWalk (l.map (edgeOf s)) := by
  obtain ⟨h1, h2, h3, h4⟩ := walk_of_path hp hv
  refine ⟨h1, fun e he f hf => ?_⟩
  cases l with
  | nil => simp at he
  | cons x l =>
    have hx : x = a := by have := h3 (by simp); simpa using this
    subst hx
    rw [h2] at he
    cases he
    rw [List.getLast?_map] at hf
    obtain ⟨z, hz, rfl⟩ := Option.map_eq_some_iff.1 hf
    exact h4 z hz

/-- The segment of the side `d` is apart from the path. -/
def SideApart (s : St K) (p q : K × K) (d : HE) : Prop := Apart (s.xy (s.vtx (d.1, false))) (s.xy (s.vtx (d.1, true))) p q

/-- The segment of the side `d` crosses the path. -/
def SideCrosses (s : St K) (p q : K × K) (d : HE) : Prop :=
  Crosses (s.xy (s.vtx (d.1, false))) (s.xy (s.vtx (d.1, true))) p q

theorem edge_apart_iff (s : St K) (p q : K × K) (d : HE) :
    Apart (edgeOf s d).1 (edgeOf s d).2 p q ↔ SideApart s p q d := by
  obtain ⟨e, v⟩ := d
  cases v
  · exact ⟨Apart.swapL, Apart.swapL⟩
  · exact Iff.rfl

theorem edge_crosses_iff (s : St K) (p q : K × K) (d : HE) :
    Crosses (edgeOf s d).1 (edgeOf s d).2 p q ↔ SideCrosses s p q d := by
  obtain ⟨e, v⟩ := d
  cases v
  · exact ⟨Crosses.swapL, Crosses.swapL⟩
  · exact Iff.rfl

theorem edge_test (s : St K) {p : K × K} {d : HE}
    (h : ¬ OnSeg (s.xy (s.vtx (d.1, false))) (s.xy (s.vtx (d.1, true))) p) :
    isOnXLine (edgeOf s d).1 (edgeOf s d).2 p = isOnXLine (s.xy (s.vtx (d.1, false))) (s.xy (s.vtx (d.1, true))) p := by
  obtain ⟨e, v⟩ := d
  cases v
  · exact (isOnXLine_swap h).symm
  · rfl

theorem Crosses.not_on {a b p q : K × K} (h : Crosses a b p q) : ¬ OnSeg a b p ∧ ¬ OnSeg a b q := by
  have hs := cross_signs h
  exact ⟨not_onSeg_of_side (by rcases hs with hs | hs; exacts [hs.1.ne', hs.1.ne]),
    not_onSeg_of_side (by rcases hs with hs | hs; exacts [hs.2.1.ne, hs.2.1.ne'])⟩

/-- What the loop over the sides of a wire finds, from the invariants. -/
theorem wire_walk_of {s : St K} (hL : Links s ∅ ∅) (hW : Wires s) {w : Id} (hw : w ∈ s.wid.live) (h0 : w ≠ 0) :
    ∃ l, wireAll s w = .ok l ∧ l.Nodup ∧ (∀ d : HE, d ∈ l ↔ d.1 ∈ s.sid.live ∧ s.wire d = some w) ∧
      ClosedWalk (l.map (edgeOf s)) := by
  obtain ⟨l, h1, h2, h3⟩ : ∃ l, wireAll s w = .ok l ∧ l.Nodup ∧ ∀ d : HE, d ∈ l ↔ d.1 ∈ s.sid.live ∧ s.wire d = some w := by
    obtain ⟨l, hc⟩ := hW.cyc w hw h0
    obtain ⟨d, d1, d2, d3⟩ := hW.seg w hw h0
    obtain ⟨a, ha⟩ := hc.path
    obtain ⟨l', h1, h2, h3⟩ := path_from ha hc.nd ((hc.mem d).2 ⟨d2, d3⟩)
    refine ⟨d :: l', ?_, h3, fun k => by rw [h2.mem_iff, hc.mem]⟩
    unfold wireAll
    rw [if_neg (hW.par w hw h0), d1]
    simp only [need, bind, Except.bind]
    refine walkGo_ok h1 (by simp) ?_ ?_ ?_
    · simpa using (List.nodup_cons.1 h3).1
    · simpa using (List.nodup_cons.1 h3).1
    · have := length_le_two_mul h3 (fun k hk => hL.sids.lt _ ((hc.mem k).1 (h2.mem_iff.1 hk)).1)
      unfold fuel
      omega
  refine ⟨l, h1, h2, h3, ?_⟩
  obtain ⟨_, h4⟩ := wireAll_sound h1
  rcases h4 with h4 | ⟨d, _, _, hp, _, _⟩
  · rw [h4.2]; exact ⟨trivial, by simp⟩
  · refine closed_of_path hp fun x hx k hk => ?_
    obtain ⟨k', e1, _, e2, _⟩ := hL.next_ok ((h3 x).1 hx).1 (by simp)
    rw [e1] at hk
    cases hk
    exact e2

/-- What the loop over the sides of a wire finds. -/
theorem wire_walk {g : Geom K} {s : St K} (h : SoundReach g s) {w : Id} (hw : w ∈ s.wid.live) (h0 : w ≠ 0) :
    ∃ l, wireAll s w = .ok l ∧ l.Nodup ∧ (∀ d : HE, d ∈ l ↔ d.1 ∈ s.sid.live ∧ s.wire d = some w) ∧
      ClosedWalk (l.map (edgeOf s)) := wire_walk_of h.reach.inv.links h.wires hw h0

/-- The answers of `contains_point` at two points differ exactly if a straight path between them, which meets no end of a
segment of the wire, crosses an odd number of sides of the wire; from the invariants. -/
theorem contains_crossings_of {s : St K} (hL : Links s ∅ ∅) (hW : Wires s) {w : Id} (hw : w ∈ s.wid.live) (h0 : w ≠ 0)
    {p q : K × K}
    (hc : ∀ d : HE, d.1 ∈ s.sid.live → s.wire d = some w → SideApart s p q d ∨ SideCrosses s p q d) :
    ∃ b b' : Bool, ∃ l : List HE, containsPoint s w p = .ok b ∧ containsPoint s w q = .ok b' ∧ l.Nodup ∧
      (∀ d : HE, d ∈ l ↔ d.1 ∈ s.sid.live ∧ s.wire d = some w ∧ SideCrosses s p q d) ∧
      (b ≠ b' ↔ l.length % 2 = 1) := by
  classical
  obtain ⟨l, h1, h2, h3, h4⟩ := wire_walk_of hL hW hw h0
  have hpar := hW.par w hw h0
  have hodd : ∀ x : K × K, (∀ d ∈ l, ¬ OnSeg (s.xy (s.vtx (d.1, false))) (s.xy (s.vtx (d.1, true))) x) →
      containsPoint s w x = .ok (odd (l.map (edgeOf s)) x) := by
    intro x hx
    unfold containsPoint
    rw [if_neg hpar, h1]
    simp only [bind, Except.bind, Except.ok.injEq, odd, List.filter_map, List.length_map, Function.comp_def]
    congr 3
    refine congrArg List.length (List.filter_congr fun d hd => (edge_test s (hx d hd)).symm)
  have hno : ∀ d ∈ l, ¬ OnSeg (s.xy (s.vtx (d.1, false))) (s.xy (s.vtx (d.1, true))) p ∧
      ¬ OnSeg (s.xy (s.vtx (d.1, false))) (s.xy (s.vtx (d.1, true))) q := by
    intro d hd
    obtain ⟨a1, a2⟩ := (h3 d).1 hd
    rcases hc d a1 a2 with h5 | h5
    · exact ⟨fun h6 => h5 p h6 (OnSeg.left p q), fun h6 => h5 q h6 (OnSeg.right p q)⟩
    · exact h5.not_on
  refine ⟨_, _, l.filter fun d => decide (SideCrosses s p q d), hodd p (fun d hd => (hno d hd).1),
    hodd q (fun d hd => (hno d hd).2), h2.filter _, fun d => ?_, ?_⟩
  · rw [List.mem_filter, h3, decide_eq_true_iff, and_assoc]
  · have := odd_closed h4 (p := p) (q := q) (by
      intro f hf
      obtain ⟨d, hd, rfl⟩ := List.mem_map.1 hf
      obtain ⟨a1, a2⟩ := (h3 d).1 hd
      rw [edge_apart_iff, edge_crosses_iff]
      exact hc d a1 a2)
    rw [List.filter_map, List.length_map] at this
    have e : ((fun f : (K × K) × (K × K) => decide (Crosses f.1 f.2 p q)) ∘ edgeOf s)
        = fun d => decide (SideCrosses s p q d) := by
      funext d
      simp only [Function.comp_def, edge_crosses_iff]
    rw [e] at this
    have key : ∀ (x y : Bool) (P : Prop) [Decidable P], (x ^^ y) = decide P → (x ≠ y ↔ P) := by
      intro x y P _ hx
      by_cases hP : P
      · rw [decide_eq_true hP] at hx; cases x <;> cases y <;> simp_all
      · rw [decide_eq_false hP] at hx; cases x <;> cases y <;> simp_all
    exact key _ _ _ this

/-- The answers of `contains_point` at two points differ exactly if a straight path between them, which meets no end of a
segment of the wire, crosses an odd number of sides of the wire. -/
theorem contains_point_crossings {g : Geom K} {s : St K} (h : SoundReach g s) {w : Id} (hw : w ∈ s.wid.live) (h0 : w ≠ 0)
    {p q : K × K}
    (hc : ∀ d : HE, d.1 ∈ s.sid.live → s.wire d = some w → SideApart s p q d ∨ SideCrosses s p q d) :
    ∃ b b' : Bool, ∃ l : List HE, containsPoint s w p = .ok b ∧ containsPoint s w q = .ok b' ∧ l.Nodup ∧
      (∀ d : HE, d ∈ l ↔ d.1 ∈ s.sid.live ∧ s.wire d = some w ∧ SideCrosses s p q d) ∧
      (b ≠ b' ↔ l.length % 2 = 1) :=
  contains_crossings_of h.reach.inv.links h.wires hw h0 hc

/-- A point to the right of the whole wire is outside. -/
theorem contains_point_beyond {g : Geom K} {s : St K} (h : SoundReach g s) {w : Id} (hw : w ∈ s.wid.live) (h0 : w ≠ 0)
    {q : K × K} (hq : ∀ d : HE, d.1 ∈ s.sid.live → s.wire d = some w →
      (s.xy (s.vtx (d.1, false))).1 < q.1 ∧ (s.xy (s.vtx (d.1, true))).1 < q.1) :
    containsPoint s w q = .ok false := by
  obtain ⟨l, h1, h2, h3, h4⟩ := wire_walk h hw h0
  unfold containsPoint
  rw [if_neg (h.wires.par w hw h0), h1]
  simp only [bind, Except.bind, Except.ok.injEq]
  have := odd_beyond (l := l.map fun d => (s.xy (s.vtx (d.1, false)), s.xy (s.vtx (d.1, true)))) (q := q) (by
    intro e he
    obtain ⟨d, hd, rfl⟩ := List.mem_map.1 he
    exact hq d ((h3 d).1 hd).1 ((h3 d).1 hd).2)
  simpa [odd, List.filter_map, Function.comp_def] using this

/-- `contains_point` is the parity of the crossings of any path that leads beyond the wire without meeting an end of its
segments. -/
theorem contains_point_parity {g : Geom K} {s : St K} (h : SoundReach g s) {w : Id} (hw : w ∈ s.wid.live) (h0 : w ≠ 0)
    {p q : K × K}
    (hc : ∀ d : HE, d.1 ∈ s.sid.live → s.wire d = some w → SideApart s p q d ∨ SideCrosses s p q d)
    (hq : ∀ d : HE, d.1 ∈ s.sid.live → s.wire d = some w →
      (s.xy (s.vtx (d.1, false))).1 < q.1 ∧ (s.xy (s.vtx (d.1, true))).1 < q.1) :
    ∃ l : List HE, l.Nodup ∧ (∀ d : HE, d ∈ l ↔ d.1 ∈ s.sid.live ∧ s.wire d = some w ∧ SideCrosses s p q d) ∧
      containsPoint s w p = .ok (decide (l.length % 2 = 1)) := by
  obtain ⟨b, b', l, h1, h2, h3, h4, h5⟩ := contains_point_crossings h hw h0 hc
  rw [contains_point_beyond h hw h0 hq] at h2
  cases h2
  refine ⟨l, h3, h4, ?_⟩
  rw [h1]
  congr 1
  cases b
  · simpa using h5
  · simpa using h5

/-- No crossing, no change: a wire has the same answer for all points of a region that it does not enter. -/
theorem contains_point_region {g : Geom K} {s : St K} (h : SoundReach g s) {w : Id} (hw : w ∈ s.wid.live) (h0 : w ≠ 0)
    {p q : K × K} (hc : ∀ d : HE, d.1 ∈ s.sid.live → s.wire d = some w → SideApart s p q d) :
    containsPoint s w p = containsPoint s w q := by
  obtain ⟨b, b', l, h1, h2, h3, h4, h5⟩ := contains_point_crossings h hw h0 (fun d h1 h2 => Or.inl (hc d h1 h2))
  rw [h1, h2]
  have hl : l = [] := by
    rw [List.eq_nil_iff_forall_not_mem]
    intro d hd
    obtain ⟨a1, a2, a3⟩ := (h4 d).1 hd
    obtain ⟨hn, x, t, hx, ht, he⟩ := a3
    exact hc d a1 a2 _ ⟨x, hx.1.le, hx.2.le, rfl⟩ ⟨t, ht.1.le, ht.2.le, he⟩
  rw [hl] at h5
  congr 1
  by_contra hb
  exact absurd (h5.1 hb) (by simp)

/-! ### Division of a segment -/

/-- Parity of the sides in a list that are met by the ray from `p`. -/
def met (s : St K) (p : K × K) (l : List HE) : Bool :=
  decide ((l.filter fun h => isOnXLine (s.xy (s.vtx (h.1, false))) (s.xy (s.vtx (h.1, true))) p).length % 2 = 1)

omit [IsStrictOrderedRing K] in
theorem met_cons (s : St K) (p : K × K) (d : HE) (l : List HE) :
    met s p (d :: l) = (isOnXLine (s.xy (s.vtx (d.1, false))) (s.xy (s.vtx (d.1, true))) p ^^ met s p l) := by
  have := odd_cons (s.xy (s.vtx (d.1, false)), s.xy (s.vtx (d.1, true)))
    (l.map fun h => (s.xy (s.vtx (h.1, false)), s.xy (s.vtx (h.1, true)))) p
  rw [← List.map_cons (f := fun h : HE => (s.xy (s.vtx (h.1, false)), s.xy (s.vtx (h.1, true))))] at this
  simpa only [odd, List.filter_map, List.length_map, Function.comp_def, met] using this

/-- `split_segment` at a point of the segment changes no answer of `contains_point`. -/
theorem contains_point_split {g : Geom K} {s s' : St K} (h : SoundReach g s) {e mid n : Id} (he : e ∈ s.sid.live)
    (hm : mid ∈ s.pid.live) (hf : s.pseg mid = none) (hs : splitSegment e mid s = .ok (n, s'))
    (hon : OnSeg (s.xy (s.vtx (e, false))) (s.xy (s.vtx (e, true))) (s.xy mid)) {w : Id} (hw : w ∈ s.wid.live)
    (h0 : w ≠ 0) (p : K × K) : containsPoint s' w p = containsPoint s w p := by
  have hI := h.reach.inv
  obtain ⟨_, _, hS⟩ := splitSegment_eff hs hI.links he hm hf hI.free (by simp)
  by_cases hp : s.parent w = none
  · unfold containsPoint; rw [hS.parent, if_pos hp, if_pos hp]
  have h' : SoundReach g s' := .step (o := .splitSegment e mid) h ⟨⟨he, hm, hf⟩, trivial⟩ (by
    simp only [step, bind, Except.bind, hs])
  obtain ⟨l, a1, a2, a3, _⟩ := wire_walk h hw h0
  obtain ⟨l', b1, b2, b3, _⟩ := wire_walk h' (hS.wid ▸ hw) h0
  have hen : e ≠ n := fun hh => hS.fresh (hh ▸ he)
  let B : HE → List HE := fun d => if d.1 = e then [d, (n, d.2)] else [d]
  have hlive : ∀ d ∈ l, d.1 ≠ n := fun d hd hh => hS.fresh (hh ▸ ((a3 d).1 hd).1)
  have hperm : l'.Perm (l.flatMap B) := by
    refine (List.perm_ext_iff_of_nodup b2 ?_).2 fun d => ?_
    · rw [List.nodup_flatMap]
      refine ⟨fun d hd => ?_, a2.imp_of_mem fun {x y} hx hy hxy => ?_⟩
      · by_cases hd' : d.1 = e
        · simp only [B, if_pos hd', List.nodup_cons, List.mem_singleton, List.not_mem_nil, not_false_eq_true, List.nodup_nil,
            and_true]
          intro hh
          exact hlive d hd (by rw [hh])
        · simp [B, if_neg hd']
      · intro z h1 h2
        have key : ∀ x ∈ l, z ∈ B x → (z.1 = n → x = (e, z.2)) ∧ (z.1 ≠ n → x = z) := by
          intro x hx hz
          by_cases hxe : x.1 = e
          · simp only [B, if_pos hxe, List.mem_cons, List.not_mem_nil, or_false] at hz
            rcases hz with rfl | rfl
            · exact ⟨fun hh => absurd hh (hlive _ hx), fun _ => rfl⟩
            · exact ⟨fun _ => by rw [← hxe], fun hh => absurd rfl hh⟩
          · simp only [B, if_neg hxe, List.mem_singleton] at hz
            subst hz
            exact ⟨fun hh => absurd hh (hlive _ hx), fun _ => rfl⟩
        by_cases hz : z.1 = n
        · exact hxy (((key x hx h1).1 hz).trans ((key y hy h2).1 hz).symm)
        · exact hxy (((key x hx h1).2 hz).trans ((key y hy h2).2 hz).symm)
    · rw [b3, List.mem_flatMap]
      obtain ⟨d1, v⟩ := d
      by_cases hd : d1 = n
      · subst hd
        rw [hS.wn]
        constructor
        · rintro ⟨_, h2⟩
          exact ⟨(e, v), (a3 _).2 ⟨he, h2⟩, by simp [B]⟩
        · rintro ⟨x, hx, h2⟩
          by_cases hxe : x.1 = e
          · simp only [B, if_pos hxe, List.mem_cons, List.not_mem_nil, or_false] at h2
            rcases h2 with rfl | h2
            · exact absurd rfl (hlive _ hx)
            · have hv : v = x.2 := congrArg Prod.snd h2
              refine ⟨(hS.live _).2 (Or.inr rfl), ?_⟩
              have := ((a3 x).1 hx).2
              rw [hv, ← hxe]; exact this
          · simp only [B, if_neg hxe, List.mem_singleton] at h2
            subst h2
            exact absurd rfl (hlive _ hx)
      · rw [hS.wo _ hd, hS.live]
        constructor
        · rintro ⟨h1, h2⟩
          refine ⟨(d1, v), (a3 _).2 ⟨h1.resolve_right hd, h2⟩, ?_⟩
          by_cases hxe : d1 = e
          · simp [B, hxe]
          · simp [B, hxe]
        · rintro ⟨x, hx, h2⟩
          have : x = (d1, v) := by
            by_cases hxe : x.1 = e
            · simp only [B, if_pos hxe, List.mem_cons, List.not_mem_nil, or_false] at h2
              rcases h2 with rfl | h2
              · rfl
              · exact absurd (congrArg Prod.fst h2) hd
            · simp only [B, if_neg hxe, List.mem_singleton] at h2
              exact h2.symm
          subst this
          exact ⟨Or.inl ((a3 _).1 hx).1, ((a3 _).1 hx).2⟩
  have hmet : ∀ l : List HE, (∀ d ∈ l, d.1 ≠ n) → met s' p (l.flatMap B) = met s p l := by
    intro l
    induction l with
    | nil => intro _; rfl
    | cons d l ih =>
      intro hl
      rw [List.flatMap_cons, met_cons, ← ih (fun x hx => hl x (List.mem_cons_of_mem _ hx))]
      have hdn := hl d List.mem_cons_self
      by_cases hd : d.1 = e
      · have v0 : s'.vtx (e, false) = s.vtx (e, false) := hS.vo _ (by simp) hen
        simp only [B, if_pos hd, List.cons_append, List.nil_append]
        rw [met_cons, met_cons, hd, v0, hS.ve, hS.vn0, hS.vn1, hS.xy, (isOnXLine_split hon p).1, Bool.xor_assoc]
      · have v0 : s'.vtx (d.1, false) = s.vtx (d.1, false) := hS.vo _ (by simp) hdn
        have v1 : s'.vtx (d.1, true) = s.vtx (d.1, true) :=
          hS.vo _ (fun hh => hd (congrArg Prod.fst hh)) hdn
        simp only [B, if_neg hd, List.cons_append, List.nil_append]
        rw [met_cons, v0, v1, hS.xy]
  have e1 : containsPoint s w p = .ok (met s p l) := by
    unfold containsPoint; rw [if_neg hp, a1]; rfl
  have e2 : containsPoint s' w p = .ok (met s' p l') := by
    unfold containsPoint; rw [hS.parent, if_neg hp, b1]; rfl
  rw [e1, e2]
  congr 1
  rw [← hmet l hlive]
  unfold met
  rw [(hperm.filter _).length_eq]

end
end Verif.Plane
