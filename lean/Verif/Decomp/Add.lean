import Verif.Decomp.Tree

/-! Operations that add a segment: links, free points and labels after them. -/
namespace Verif.Decomp

variable {K : Type} {T : Prop}

/-! ### Walks -/

theorem path_nodup {α : Type} {f : α → Option α} {l : List α} : ∀ {a b : α}, Path f a l b → b ∉ l.tail → l.Nodup := by
  induction l with
  | nil => intros; exact List.nodup_nil
  | cons x l ih =>
    intro a b hp hb
    simp only [List.tail_cons] at hb
    have hpx := hp
    obtain ⟨rfl, y, hy, hp⟩ := hp
    rw [List.nodup_cons]
    refine ⟨fun hx => ?_, ih hp (fun h => hb (List.mem_of_mem_tail h))⟩
    obtain ⟨u, v, rfl⟩ := List.append_of_mem hx
    rw [path_append] at hp
    obtain ⟨c, _, hv⟩ := hp
    obtain rfl := path_head hv
    have hbv : b ∉ v := fun h => hb (by simp [h])
    have := path_first hpx hv (by simp) (by simp) (by simpa using hb) (by simpa using hbv)
    have h2 := congrArg List.length this
    simp only [List.length_cons, List.length_append] at h2
    omega

theorem walkGo_sound {s : St K} {start stop : HE} : ∀ {n : Nat} {h : HE} {l : List HE},
    walkGo s start stop n h = .ok l → Path s.next h l stop ∧ l ≠ [] ∧ stop ∉ l.tail := by
  intro n
  induction n with
  | zero => intro h l hh; simp [walkGo] at hh
  | succ n ih =>
    intro h l hh
    simp only [walkGo, bind_ok, need_ok] at hh
    obtain ⟨k, hk, hh⟩ := hh
    split at hh
    · next hks =>
      simp only [Except.ok.injEq] at hh
      subst hh
      exact ⟨⟨rfl, k, hk, hks⟩, by simp, by simp⟩
    · next hks =>
      simp only [bind_ok, Except.ok.injEq] at hh
      obtain ⟨_, _, m, h2, rfl⟩ := hh
      obtain ⟨h3, h4, h5⟩ := ih h2
      refine ⟨⟨rfl, k, hk, h3⟩, by simp, ?_⟩
      simp only [List.tail_cons]
      cases m with
      | nil => exact absurd rfl h4
      | cons z m =>
        have := path_head h3
        subst this
        simp only [List.tail_cons] at h5
        simp only [List.mem_cons, not_or]
        exact ⟨fun h => hks h.symm, h5⟩

/-- Sides relabelled by a walk. -/
def Walk (s : St K) (w : Id) (start stop : HE) (l : List HE) : Prop :=
  l.Nodup ∧ ((s.parent w = none ∧ l = []) ∨
    (s.parent w ≠ none ∧ Path s.next start l stop ∧ l ≠ [] ∧ stop ∉ l.tail))

theorem wireSegments_sound {s : St K} {w : Id} {start stop : HE} {l : List HE}
    (h : wireSegments s w start stop = .ok l) : Walk s w start stop l := by
  unfold wireSegments at h
  split at h
  · next hp =>
    simp only [Except.ok.injEq] at h
    subst h
    exact ⟨List.nodup_nil, Or.inl ⟨hp, rfl⟩⟩
  · next hp =>
    obtain ⟨h1, h2, h3⟩ := walkGo_sound h
    exact ⟨path_nodup h1 h3, Or.inr ⟨hp, h1, h2, h3⟩⟩

theorem wireAll_sound {s : St K} {w : Id} {l : List HE} (h : wireAll s w = .ok l) :
    l.Nodup ∧ ((s.parent w = none ∧ l = []) ∨
      ∃ d, s.parent w ≠ none ∧ s.wseg w = some d ∧ Path s.next d l d ∧ l ≠ [] ∧ d ∉ l.tail) := by
  unfold wireAll at h
  split at h
  · next hp =>
    simp only [Except.ok.injEq] at h
    subst h
    exact ⟨List.nodup_nil, Or.inl ⟨hp, rfl⟩⟩
  · next hp =>
    simp only [bind_ok, need_ok] at h
    obtain ⟨d, hd, h⟩ := h
    obtain ⟨h1, h2, h3⟩ := walkGo_sound h
    exact ⟨path_nodup h1 h3, Or.inr ⟨d, hp, hd, h1, h2, h3⟩⟩

/-! ### The place of a new segment -/

/-- A place between two neighbouring sides at the point `p`. -/
structure Corner (s : St K) (p : Id) (i : Ins) : Prop where
  live : i.1.1 ∈ s.sid.live
  at_ : s.vtx i.1 = p
  nxt : s.next i.1 = some i.2.1
  wir : i.2.2 = s.wire i.1

section
variable [Field K] [LinearOrder K]

theorem insertGo_sound {g : Geom K} {s : St K} {a : K} {r : HE × HE} : ∀ {hs : List HE} {last : K} {o : Option HE},
    insertGo g s a last o hs = .ok r → (o.toList ++ hs).IsChain (fun x y => rot s x = some y) →
    (∀ x, o = some x → last = turn g s a x) →
    r.1 ∈ (o.toList ++ hs).dropLast ∧ s.next r.1 = some r.2 ∧ turn g s a r.1 ≤ turn g s a (flip r.2) := by
  intro hs
  induction hs with
  | nil => intro last o h; simp [insertGo] at h
  | cons x hs ih =>
    intro last o h hc hl
    simp only [insertGo] at h
    split at h
    · next hle =>
      simp only [bind_ok, need_ok, Except.ok.injEq] at h
      obtain ⟨p, rfl, rfl⟩ := h
      simp only [Option.toList_some, List.singleton_append, List.isChain_cons_cons] at hc
      refine ⟨?_, next_of_rot hc.1, ?_⟩
      · simp
      · rw [flip_flip, ← hl p rfl]
        exact hle
    · have hc' : ((some x).toList ++ hs).IsChain (fun x y => rot s x = some y) := by
        simp only [Option.toList_some, List.singleton_append]
        exact (List.isChain_append.1 hc).2.1
      obtain ⟨h1, h2⟩ := ih h hc' (fun y hy => by rw [Option.some.inj hy])
      refine ⟨?_, h2⟩
      simp only [Option.toList_some, List.singleton_append] at h1
      rw [List.dropLast_append_of_ne_nil (by simp)]
      exact List.mem_append_right _ h1

theorem path_chain {α : Type} {f : α → Option α} {l : List α} : ∀ {a b : α}, Path f a l b →
    (l ++ [b]).IsChain (fun x y => f x = some y) := by
  induction l with
  | nil => intros; simp
  | cons x l ih =>
    intro a b hp
    obtain ⟨rfl, y, hy, hp⟩ := hp
    have := ih hp
    cases l with
    | nil =>
      simp only [Path] at hp
      subst hp
      simpa using hy
    | cons z l =>
      have hz := path_head hp
      subst hz
      simp only [List.cons_append, List.isChain_cons_cons] at this ⊢
      exact ⟨hy, this⟩

/-- The vector `v` is in the corner found: from the one side clockwise to the other the turn from `v` does not drop. -/
def Gap (g : Geom K) (s : St K) (v : K × K) (i : Ins) : Prop :=
  turn g s (g.ang v) i.1 ≤ turn g s (g.ang v) (flip i.2.1)

theorem insertVector_sound {g : Geom K} {s : St K} {p : Id} {v : K × K} {o : Option Ins} (hL : Links s ∅ ∅)
    (hp : p ∈ s.pid.live) (h : insertVector g s p v = .ok o) :
    (s.pseg p = none ∧ o = none) ∨ ∃ i, o = some i ∧ Corner s p i ∧ Gap g s v i := by
  unfold insertVector at h
  simp only [bind_ok, check_ok] at h
  obtain ⟨_, _, h⟩ := h
  cases hps : s.pseg p with
  | none =>
    simp only [hps, Except.ok.injEq] at h
    exact Or.inl ⟨rfl, h.symm⟩
  | some d =>
    simp only [hps, bind_ok, Except.ok.injEq] at h
    obtain ⟨l, h1, r, h2, rfl⟩ := h
    obtain ⟨m, hr, hP⟩ := hL.ring p hp
    have hdm : d ∈ m := by
      rcases (hP (by simp)).som d hps with h | ⟨_, h, _⟩
      · exact h
      · simp at h
    obtain ⟨l', h3, h4, h5, h6⟩ := around_ring hL.sids hr hdm
    rw [h1] at h3
    simp only [Except.ok.injEq] at h3
    subst h3
    have hc := path_chain h4
    obtain ⟨h7, h8, h11⟩ := insertGo_sound (o := none) h2 (by simpa using hc) (by simp)
    have h9 : r.1 ∈ d :: l' := by
      have : ((none : Option HE).toList ++ (d :: l' ++ [d])).dropLast = d :: l' := by
        rw [Option.toList_none, List.nil_append]; exact List.dropLast_concat
      rwa [this] at h7
    have h10 := (hr.mem r.1).1 (h5.subset h9)
    exact Or.inr ⟨_, rfl, ⟨h10.1, h10.2.1, h8, rfl⟩, h11⟩

end

/-! ### Adding -/

/-- The objects after the segment `e` from `a` to `b` was added. -/
structure AddSeg [Field K] (s s' : St K) (e a b : Id) : Prop where
  ne : a ≠ b
  fresh : e ∉ s.sid.live
  sid : s'.sid = s.sid.append.2
  live : ∀ j, j ∈ s'.sid.live ↔ j ∈ s.sid.live ∨ j = e
  v0 : s'.vtx (e, false) = a
  v1 : s'.vtx (e, true) = b
  vo : ∀ d : HE, d.1 ≠ e → s'.vtx d = s.vtx d
  tab : s'.table = upd s.table (a, b) (some e)
  xy : s'.xy = s.xy
  pid : s'.pid = s.pid
  vec : ∀ j, s'.vec j = if j = e then ((s.xy b).1 - (s.xy a).1, (s.xy b).2 - (s.xy a).2) else s.vec j

theorem AddSeg.frame [Field K] {s s' s'' : St K} {e a b : Id} (h : AddSeg s s' e a b) (h1 : s''.sid = s'.sid)
    (h2 : s''.vtx = s'.vtx) (h3 : s''.table = s'.table) (h4 : s''.xy = s'.xy) (h5 : s''.pid = s'.pid)
    (h6 : s''.vec = s'.vec) : AddSeg s s'' e a b := by
  obtain ⟨c1, c2, c3, c4, c5, c6, c7, c8, c9, c10, c11⟩ := h
  constructor
  · exact c1
  · exact c2
  · rw [h1]; exact c3
  · rw [h1]; exact c4
  · rw [h2]; exact c5
  · rw [h2]; exact c6
  · rw [h2]; exact c7
  · rw [h3]; exact c8
  · rw [h4]; exact c9
  · rw [h5]; exact c10
  · rw [h6]; exact c11

/-- `AddSeg` seen from another state with the same points, segments and lookup. -/
theorem AddSeg.base [Field K] {s t s' : St K} {e a b : Id} (h : AddSeg t s' e a b) (h1 : t.sid = s.sid)
    (h2 : t.vtx = s.vtx) (h3 : t.table = s.table) (h4 : t.xy = s.xy) (h5 : t.pid = s.pid)
    (h6 : t.vec = s.vec) : AddSeg s s' e a b := by
  obtain ⟨c1, c2, c3, c4, c5, c6, c7, c8, c9, c10, c11⟩ := h
  rw [h1] at c2 c3 c4
  rw [h2] at c7
  rw [h3] at c8
  rw [h4] at c9 c11
  rw [h5] at c10
  rw [h6] at c11
  exact ⟨c1, c2, c3, c4, c5, c6, c7, c8, c9, c10, c11⟩

variable [Field K]

theorem makeSegment_eff {a b e : Id} {s s' : St K} (h : makeSegment a b s = .ok (e, s')) (hL : Links s ∅ ∅)
    (ha : a ∈ s.pid.live) (hb : b ∈ s.pid.live) (hF : Free T s) :
    AddSeg s s' e a b ∧ Links s' {d | d.1 = e} ∅ ∧ Free T s' ∧
      ∃ pp fp V N W vc, s' = { s with
        ppoly := pp
        fpts := fp
        pseg := makePs s e a b
        sid := s.sid.append.2
        vtx := V
        wire := W
        next := N
        vec := vc
        table := upd s.table (a, b) (some e) } ∧
        (∀ d : HE, d.1 ≠ e → W d = s.wire d) ∧ (∀ d : HE, d.1 ≠ e → N d = s.next d) := by
  have h1 := makeSegment_links hL ha hb h
  have h2 := makeSegment_free hF h
  obtain ⟨hab, he, pp, fp, rfl⟩ := makeSegment_eq h
  obtain ⟨h3, h4, h5⟩ := Ids.append_ok hL.sids
  rw [← he] at h3 h4
  have hne : ((e, false) : HE) ≠ (e, true) := by simp
  refine ⟨?_, by simpa using h1, h2, pp, fp, _, _, _, _, rfl, ?_, ?_⟩
  · constructor
    · exact hab
    · exact h3
    · rfl
    · intro j; rw [h4]; simp
    · simp only [upd, Function.update_of_ne hne, Function.update_self]
    · simp only [upd, Function.update_self]
    · intro d hd
      have h5 : d ≠ (e, true) := fun h => hd (by rw [h])
      have h6 : d ≠ (e, false) := fun h => hd (by rw [h])
      simp only [upd, Function.update_of_ne h5, Function.update_of_ne h6]
    · rfl
    · rfl
    · rfl
    · intro j
      simp only [upd, Function.update_apply]
  · intro d hd
    have h5 : d ≠ (e, true) := fun h => hd (by rw [h])
    have h6 : d ≠ (e, false) := fun h => hd (by rw [h])
    simp only [upd, Function.update_of_ne h5, Function.update_of_ne h6]
  · intro d hd
    have h5 : d ≠ (e, true) := fun h => hd (by rw [h])
    have h6 : d ≠ (e, false) := fun h => hd (by rw [h])
    simp only [upd, Function.update_of_ne h5, Function.update_of_ne h6]

/-- A point without stored segment has no segments. -/
theorem Links.no_seg {s : St K} {Y : Set Id} (hL : Links s ∅ Y) {p : Id} (hp : p ∈ s.pid.live) (hY : p ∉ Y)
    (h : s.pseg p = none) (d : HE) (hd : d.1 ∈ s.sid.live) : s.vtx d ≠ p := by
  obtain ⟨l, hr, hP⟩ := hL.ring p hp
  have h0 := (hP hY).non h
  intro hv
  have := (hr.mem d).2 ⟨hd, hv, by simp⟩
  rw [h0] at this
  simp at this

theorem newWire_eff {q a b e : Id} {s s' : St K} (h : newWire q a b s = .ok (e, s')) (hL : Links s ∅ ∅)
    (ha : a ∈ s.pid.live) (hb : b ∈ s.pid.live) (hF : Free T s) (hpa : s.pseg a = none) (hpb : s.pseg b = none) :
    AddSeg s s' e a b ∧ Links s' ∅ ∅ ∧ Free T s' ∧ (Tree s → Tree s') ∧
      s'.wid = s.wid.append.2 ∧ s'.qid = s.qid ∧ s'.outer = s.outer ∧
      s'.wpoly = upd s.wpoly s.wid.append.1 (some q) ∧
      s'.parent = upd s.parent s.wid.append.1 (some (s.outer q)) ∧
      s'.wseg = upd s.wseg s.wid.append.1 (some (e, false)) ∧
      (∀ d : HE, d.1 ≠ e → s'.wire d = s.wire d ∧ s'.next d = s.next d) ∧
      ∀ v, s'.wire (e, v) = some s.wid.append.1 ∧ s'.next (e, v) = some (e, !v) := by
  unfold newWire at h
  simp only [bind_ok, Except.ok.injEq] at h
  obtain ⟨s1, h1, ⟨e', s2⟩, h2, s3, h3, s4, h4, h5⟩ := h
  simp only [Prod.mk.injEq] at h5
  obtain ⟨rfl, rfl⟩ := h5
  have hT : Tree s → Tree s1 := by
    intro hT
    have hT1 := newWireObj_tree hT
    obtain ⟨h6, h7, _⟩ := Ids.append_ok hT.wids
    refine setParent_tree (x := s.outer q) ?_ ?_ ?_ h1
    · exact hT1.frame rfl rfl rfl
    · show s.wid.append.1 ∈ s.wid.append.2.live
      rw [h7]; simp
    · intro h0
      exact h6 ((show s.wid.append.1 = 0 from h0) ▸ hT.root)
  obtain ⟨C, rfl⟩ := setParent_eq h1
  obtain ⟨hA, hL2, hF2, pp, fp, V, N, W, vc, rfl, hW, hN⟩ :=
    makeSegment_eff h2 (hL.frame rfl rfl rfl rfl rfl) ha hb (hF.congr rfl rfl rfl rfl rfl)
  simp only [newWireObj] at hA
  obtain ⟨c1, c2, c3, c4, c5, c6, c7, c8, c9, c10, c11⟩ := hA
  simp only at c2 c4 c5 c6 c7 c11
  have hF3 := connectFree_free hF2 h3
  have hno : ∀ k : HE, k.1 ∈ s.sid.append.2.live → V k = a ∨ V k = b → k.1 = e' := by
    intro k hk hv
    by_contra hke
    have hk' := ((c4 k.1).1 hk).resolve_right hke
    rw [c7 k hke] at hv
    rcases hv with hv | hv
    · exact hL.no_seg ha (by simp) hpa k hk' hv
    · exact hL.no_seg hb (by simp) hpb k hk' hv
  have hps1 : makePs s e' a b a = some (e', false) := by simp [makePs, hpa]
  have hps2 : makePs s e' a b b = some (e', true) := by simp [makePs, hpb, c1.symm]
  have hlive : e' ∈ s.sid.append.2.live := (c4 e').2 (Or.inr rfl)
  obtain ⟨pp2, fp2, rfl, hL3⟩ := connectFree_links hL2 hlive rfl
    (fun k hk hv => hno k hk (Or.inl (hv.trans c5)))
    (by right; show makePs s e' a b (V (e', false)) = _; rw [c5]; exact hps1) h3
  have hF4 := connectFree_free hF3 h4
  obtain ⟨pp3, fp3, rfl, hL4⟩ := connectFree_links hL3 hlive (by simp)
    (fun k hk hv => by
      refine ⟨hno k hk (Or.inr (hv.trans c6)), ?_⟩
      rintro rfl
      have : a = b := by rw [← c5, ← c6]; exact hv
      exact c1 this)
    (by
      right
      show upd (makePs s e' a b) (V (e', false)) (some (e', false)) (V (e', true)) = _
      rw [c5, c6]
      simp only [upd, Function.update_of_ne c1.symm]
      exact hps2) h4
  have hX : (({d : HE | d.1 = e'} \ {(e', false)}) \ {(e', true)} : Set HE) = ∅ := by
    ext ⟨d, v⟩
    simp only [Set.mem_diff, Set.mem_setOf_eq, Set.mem_singleton_iff, Set.mem_empty_iff_false, iff_false]
    cases v <;> simp
  rw [hX] at hL4
  refine ⟨⟨c1, c2, c3, c4, c5, c6, c7, c8, c9, c10, c11⟩, hL4.frame rfl rfl rfl rfl rfl,
    hF4.congr rfl rfl rfl rfl rfl, fun h => (hT h).frame rfl rfl rfl, rfl, rfl, rfl, ?_, ?_, ?_, ?_, ?_⟩
  · exact Function.update_idem _ _ _
  · exact Function.update_idem _ _ _
  · exact Function.update_idem _ _ _
  · intro d hd
    have h5 : d ≠ (e', true) := fun h => hd (by rw [h])
    have h6 : d ≠ (e', false) := fun h => hd (by rw [h])
    simp only [upd, Function.update_of_ne h5, Function.update_of_ne h6]
    exact ⟨hW d hd, hN d hd⟩
  · intro v
    have hne : ((e', false) : HE) ≠ (e', true) := by simp
    cases v
    · simp only [upd, Function.update_of_ne hne, Function.update_self]
      exact ⟨rfl, rfl⟩
    · simp only [upd, Function.update_self]
      exact ⟨rfl, rfl⟩

/-- A corner is kept when a segment is made. -/
theorem Corner.make {s s' : St K} {p e a b : Id} {i : Ins} (hC : Corner s p i) (hA : AddSeg s s' e a b) :
    i.1.1 ≠ e ∧ i.1.1 ∈ s'.sid.live ∧ s'.vtx i.1 = p := by
  have h1 : i.1.1 ≠ e := fun h => hA.fresh (h ▸ hC.live)
  exact ⟨h1, (hA.live _).2 (Or.inl hC.live), by rw [hA.vo _ h1]; exact hC.at_⟩

theorem addDendrite_eff {a b e : Id} {i : Ins} {root : Bool} {s s' : St K}
    (h : wireAddDendrite a b i root s = .ok (e, s')) (hL : Links s ∅ ∅)
    (ha : a ∈ s.pid.live) (hb : b ∈ s.pid.live) (hF : Free T s) (hC : Corner s (if root then b else a) i)
    (hp : s.pseg (if root then a else b) = none) :
    AddSeg s s' e a b ∧ Links s' ∅ ∅ ∧ Free T s' ∧ (Tree s → Tree s') ∧
      s'.wid = s.wid ∧ s'.qid = s.qid ∧ s'.outer = s.outer ∧ s'.wpoly = s.wpoly ∧ s'.parent = s.parent ∧
      s'.wseg = s.wseg ∧
      (∀ d : HE, d.1 ≠ e → s'.wire d = s.wire d ∧ (d ≠ i.1 → s'.next d = s.next d)) ∧
      (∀ v, s'.wire (e, v) = i.2.2) ∧ s'.next (e, root) = some i.2.1 ∧ s'.next i.1 = some (e, !root) ∧
      s'.next (e, !root) = some (e, root) := by
  unfold wireAddDendrite at h
  simp only [bind_ok, Except.ok.injEq] at h
  obtain ⟨⟨e', s1⟩, h1, s2, h2, s3, h3, h4⟩ := h
  simp only [Prod.mk.injEq] at h4
  obtain ⟨rfl, rfl⟩ := h4
  obtain ⟨hA, hL1, hF1, pp, fp, V, N, W, vc, rfl, hW, hN⟩ := makeSegment_eff h1 hL ha hb hF
  obtain ⟨d1, d2, d3⟩ := hC.make hA
  obtain ⟨c1, c2, c3, c4, c5, c6, c7, c8, c9, c10, c11⟩ := hA
  simp only at c4 c5 c6 c7 c11 d2 d3
  have hlive : e' ∈ s.sid.append.2.live := (c4 e').2 (Or.inr rfl)
  have hVr : V (e', root) = if root then b else a := by cases root <;> simp [c5, c6]
  have hVn : V (e', !root) = if root then a else b := by cases root <;> simp [c5, c6]
  have hF2 := connectVtx_free hF1 h2
  obtain ⟨rfl, hL2⟩ := connectVtx_links hL1 hlive rfl (by simp) d2 (d3.trans hVr.symm) d1 ((hN _ d1).trans hC.nxt) h2
  have hF3 := connectFree_free hF2 h3
  have hab : (if root then b else a) ≠ (if root then a else b) := by cases root <;> simp [c1, c1.symm]
  obtain ⟨pp2, fp2, rfl, hL3⟩ := connectFree_links hL2 hlive (by simp)
    (fun k hk hv => by
      have hke : k.1 = e' := by
        by_contra hke
        have hk' := ((c4 k.1).1 hk).resolve_right hke
        refine hL.no_seg (p := if root then a else b) ?_ (by simp) hp k hk' ?_
        · cases root <;> simpa
        · rw [← c7 k hke, ← hVn]; exact hv
      refine ⟨hke, ?_⟩
      rintro rfl
      exact hab (by rw [← hVr, ← hVn]; exact hv))
    (by
      right
      show makePs s e' a b (V (e', !root)) = _
      rw [hVn]
      cases root
      · simp at hp; simp [makePs, hp, c1.symm]
      · simp at hp; simp [makePs, hp]) h3
  have hX : (({d : HE | d.1 = e'} \ {(e', root)}) \ {(e', !root)} : Set HE) = ∅ := by
    ext ⟨d, v⟩
    simp only [Set.mem_diff, Set.mem_setOf_eq, Set.mem_singleton_iff, Set.mem_empty_iff_false, iff_false]
    cases v <;> cases root <;> simp
  rw [hX] at hL3
  have hne : ((e', root) : HE) ≠ (e', !root) := by simp
  have hi1 : i.1 ≠ (e', root) := fun h => d1 (by rw [h])
  have hi2 : i.1 ≠ (e', !root) := fun h => d1 (by rw [h])
  refine ⟨⟨c1, c2, c3, c4, c5, c6, c7, c8, c9, c10, c11⟩, hL3.frame rfl rfl rfl rfl rfl,
    hF3.congr rfl rfl rfl rfl rfl, fun h => h.frame rfl rfl rfl, rfl, rfl, rfl, rfl, rfl, rfl, ?_, ?_, ?_, ?_, ?_⟩
  · intro d hd
    have h5 : d ≠ (e', root) := fun h => hd (by rw [h])
    have h6 : d ≠ (e', !root) := fun h => hd (by rw [h])
    simp only [upd, Function.update_of_ne h5, Function.update_of_ne h6]
    refine ⟨hW d hd, fun h => ?_⟩
    simp only [Function.update_of_ne h, Function.update_of_ne h5]
    exact hN d hd
  · intro v
    rcases eq_or_flip (h := ((e', v) : HE)) (k := (e', root)) rfl with hv | hv
    · rw [hv]
      simp only [upd, Function.update_of_ne hne, Function.update_self]
    · rw [hv]
      simp only [upd, flip_mk, Function.update_self]
  · simp only [upd, Function.update_of_ne hne, Function.update_of_ne hi1.symm, Function.update_self]
  · simp only [upd, Function.update_of_ne hi2, Function.update_self]
    rfl
  · simp only [upd, Function.update_self]
    simp

/-- The links after the segment `e` was put between two corners. -/
structure Spliced (s s' : St K) (e : Id) (ia ib : Ins) : Prop where
  na : ia.1.1 ≠ e
  nb : ib.1.1 ≠ e
  nab : ia.1 ≠ ib.1
  pa : s'.next ia.1 = some (e, true)
  pb : s'.next ib.1 = some (e, false)
  e0 : s'.next (e, false) = some ia.2.1
  e1 : s'.next (e, true) = some ib.2.1
  other : ∀ d : HE, d.1 ≠ e → d ≠ ia.1 → d ≠ ib.1 → s'.next d = s.next d

/-- Both ends of a new segment are connected at corners. -/
theorem splice_eff {a b e : Id} {ia ib : Ins} {wb : Option Id} {s s1 s2 s3 : St K}
    (h1 : makeSegment a b s = .ok (e, s1)) (h2 : connectVtx (e, false) ia s1 = .ok s2)
    (h3 : connectVtx (e, true) (ib.1, ib.2.1, wb) s2 = .ok s3) (hL : Links s ∅ ∅)
    (ha : a ∈ s.pid.live) (hb : b ∈ s.pid.live) (hF : Free T s) (hCa : Corner s a ia) (hCb : Corner s b ib) :
    AddSeg s s3 e a b ∧ Links s3 ∅ ∅ ∧ Free T s3 ∧ Spliced s s3 e ia ib ∧
      ∃ pp fp ps V N W vc, s3 = { s with
        ppoly := pp
        fpts := fp
        pseg := ps
        sid := s.sid.append.2
        vtx := V
        wire := W
        next := N
        vec := vc
        table := upd s.table (a, b) (some e) } ∧
        (∀ d : HE, d.1 ≠ e → W d = s.wire d) ∧ W (e, false) = ia.2.2 ∧ W (e, true) = wb := by
  obtain ⟨hA, hL1, hF1, pp, fp, V, N, W, vc, rfl, hW, hN⟩ := makeSegment_eff h1 hL ha hb hF
  obtain ⟨d1, d2, d3⟩ := hCa.make hA
  obtain ⟨d4, d5, d6⟩ := hCb.make hA
  obtain ⟨c1, c2, c3, c4, c5, c6, c7, c8, c9, c10, c11⟩ := hA
  simp only at c4 c5 c6 c7 c11 d2 d3 d5 d6
  have hlive : e ∈ s.sid.append.2.live := (c4 e).2 (Or.inr rfl)
  have hF2 := connectVtx_free hF1 h2
  obtain ⟨rfl, hL2⟩ := connectVtx_links hL1 hlive rfl (by simp) d2 (d3.trans c5.symm) d1 ((hN _ d1).trans hCa.nxt) h2
  have hF3 := connectVtx_free hF2 h3
  have hab : ia.1 ≠ ib.1 := by
    intro h
    rw [h] at d3
    exact c1 (d3.symm.trans d6)
  have e1 : ib.1 ≠ (e, false) := fun h => d4 (by rw [h])
  have e2 : ib.1 ≠ (e, true) := fun h => d4 (by rw [h])
  have e3 : ia.1 ≠ (e, false) := fun h => d1 (by rw [h])
  have e4 : ia.1 ≠ (e, true) := fun h => d1 (by rw [h])
  have e5 : ((e, false) : HE) ≠ (e, true) := by simp
  obtain ⟨rfl, hL3⟩ := connectVtx_links (i := (ib.1, ib.2.1, wb)) hL2 hlive (by simp) (by simp) d5
    (d6.trans c6.symm)
    (by rintro ⟨h, _⟩; exact d4 h)
    (by
      simp only [upd, Function.update_of_ne hab.symm, Function.update_of_ne e1]
      exact (hN _ d4).trans hCb.nxt) h3
  have hX : (({d : HE | d.1 = e} \ {(e, false)}) \ {(e, true)} : Set HE) = ∅ := by
    ext ⟨d, v⟩
    simp only [Set.mem_diff, Set.mem_setOf_eq, Set.mem_singleton_iff, Set.mem_empty_iff_false, iff_false]
    cases v <;> simp
  rw [hX] at hL3
  refine ⟨⟨c1, c2, c3, c4, c5, c6, c7, c8, c9, c10, c11⟩, hL3, hF3, ?_, pp, fp, _, V, _, _, vc, rfl, ?_, ?_, ?_⟩
  · constructor
    · exact d1
    · exact d4
    · exact hab
    · simp only [upd, Function.update_of_ne hab, Function.update_of_ne e4, Function.update_self]
      rfl
    · simp only [upd, Function.update_self]
      rfl
    · simp only [upd, Function.update_of_ne e1.symm, Function.update_of_ne e5, Function.update_of_ne e3.symm,
        Function.update_self]
    · simp only [upd, Function.update_of_ne e2.symm, Function.update_self]
    · intro d hd h4 h5
      have h6 : d ≠ (e, true) := fun h => hd (by rw [h])
      have h7 : d ≠ (e, false) := fun h => hd (by rw [h])
      simp only [upd, Function.update_of_ne h4, Function.update_of_ne h5, Function.update_of_ne h6,
        Function.update_of_ne h7]
      exact hN d hd
  · intro d hd
    have h6 : d ≠ (e, true) := fun h => hd (by rw [h])
    have h7 : d ≠ (e, false) := fun h => hd (by rw [h])
    simp only [upd, Function.update_of_ne h6, Function.update_of_ne h7]
    exact hW d hd
  · simp only [upd, Function.update_of_ne e5, Function.update_self]
  · simp only [upd, Function.update_self]

/-- A wire is removed from the list of its parent and from the wires. -/
theorem dropWire_tree {s : St K} {w x : Id} {m : Ids} (h : Tree s) (hw0 : w ≠ 0) (hm : s.wid.remove w = .ok m)
    (hx : w ∈ s.childs x) (hlx : s.parent w = some x ∨ x ∈ s.wid.live) :
    Tree { s with childs := upd s.childs x ((s.childs x).erase w), wid := m } := by
  obtain ⟨h1, h2, h3, h4⟩ := Ids.remove_ok h.wids hm
  constructor
  · exact h3
  · exact (h4 0).2 ⟨hw0.symm, h.root⟩
  · exact h.top
  · intro y hy; exact h.non y ((h4 y).1 hy).2
  · intro y hy
    have hy' := ((h4 y).1 hy).2
    by_cases hyx : y = x
    · subst hyx
      simpa only [upd, Function.update_self] using (h.nd y hy').erase w
    · simpa only [upd, Function.update_of_ne hyx] using h.nd y hy'
  · intro y hy c hc
    obtain ⟨hyw, hy'⟩ := (h4 y).1 hy
    have hc' : c ≠ w ∧ c ∈ s.childs y := by
      by_cases hyx : y = x
      · subst hyx
        simp only [upd, Function.update_self] at hc
        exact (h.nd y hy').mem_erase_iff.1 hc
      · simp only [upd, Function.update_of_ne hyx] at hc
        refine ⟨?_, hc⟩
        rintro rfl
        have h5 := (h.mem y hy' c hc).2.2
        rcases hlx with h6 | h6
        · exact hyx (Option.some.inj (h5.symm.trans h6))
        · have := (h.mem x h6 c hx).2.2
          exact hyx (Option.some.inj (h5.symm.trans this))
    obtain ⟨h5, h6, h7⟩ := h.mem y hy' c hc'.2
    exact ⟨(h4 c).2 ⟨hc'.1, h5⟩, h6, h7⟩

theorem joinWires_eff {a b e : Id} {ia ib : Ins} {s s' : St K} (h : joinWires a b ia ib s = .ok (e, s'))
    (hL : Links s ∅ ∅) (ha : a ∈ s.pid.live) (hb : b ∈ s.pid.live) (hF : Free T s) (hCa : Corner s a ia)
    (hCb : Corner s b ib) :
    AddSeg s s' e a b ∧ Links s' ∅ ∅ ∧ Free T s' ∧ Spliced s s' e ia ib ∧
      ∃ aw bw q keep rm l rp, ia.2.2 = some aw ∧ ib.2.2 = some bw ∧ aw ≠ bw ∧ s.wpoly aw = some q ∧
        s.wpoly bw = some q ∧ ((keep = aw ∧ rm = bw ∧ s.outer q = aw) ∨ (keep = bw ∧ rm = aw ∧ s.outer q ≠ aw)) ∧
        ((s.parent rm = none ∧ l = []) ∨ (s.parent rm ≠ none ∧ l ≠ [] ∧
          ((rm = bw ∧ Path s'.next (e, true) l (e, false) ∧ (e, false) ∉ l.tail) ∨
            (rm = aw ∧ Path s'.next (e, false) l (e, true) ∧ (e, true) ∉ l.tail)))) ∧
        (∀ d ∈ l, d.1 ≠ e → s.wire d = some rm) ∧
        (∀ d : HE, d.1 ≠ e → s'.wire d = if d ∈ l then some keep else s.wire d) ∧
        s'.wire (e, false) = some keep ∧ ((e, true) ∈ l ∨ rm = aw → s'.wire (e, true) = some keep) ∧
        s.wid.remove rm = .ok s'.wid ∧ s'.qid = s.qid ∧
        s'.outer = (if s.outer q = aw ∨ s.outer q = bw then upd s.outer q keep else s.outer) ∧
        s'.wpoly = s.wpoly ∧ s'.wseg = s.wseg ∧
        (∀ c, s'.parent c = if c ∈ s.childs rm then
          (if s.outer q = aw ∨ s.outer q = bw then s.parent keep else some keep) else s.parent c) ∧
        s'.parent rm = some rp ∧
        (Tree s → rm ≠ 0 → (∀ c ∈ s.childs rm, c ∈ s.wid.live ∧ c ≠ 0) → s.parent keep ≠ none → Tree s') := by
  unfold joinWires at h
  simp only [bind_ok, check_ok, need_ok, Except.ok.injEq] at h
  obtain ⟨_, h0, aw, haw, bw, hbw, _, h1, q, hq, ⟨e', s1⟩, h2, s2, h3, s3, h4, keep, hk, rm, hr, l, hl, s4, h5, s5, h6,
    rp, hrp, c, hc, m, hm, h7⟩ := h
  simp only [Prod.mk.injEq] at h7
  obtain ⟨rfl, rfl⟩ := h7
  obtain ⟨hA, hL3, hF3, hS, pp, fp, ps, V, N, W, vc, rfl, hW, hW0, hW1⟩ :=
    splice_eff h2 h3 (wb := ib.2.2) h4 (hL.frame rfl rfl rfl rfl rfl) ha hb (hF.congr rfl rfl rfl rfl rfl)
      ⟨hCa.1, hCa.2, hCa.3, hCa.4⟩ ⟨hCb.1, hCb.2, hCb.3, hCb.4⟩
  have hl := wireSegments_sound hl
  obtain ⟨hln, hl⟩ := hl
  obtain ⟨rfl, hw⟩ := relabel_eq hln h5
  obtain ⟨C, h8⟩ := setParents_eq h6
  simp only at hk hr hw hl hW hW0 hW1
  rw [haw] at hW0
  rw [hbw] at hW1
  rw [haw, hbw] at h0
  have hawbw : aw ≠ bw := fun h => h0 (by rw [h])
  have hkr : (keep = aw ∧ rm = bw ∧ s.outer q = aw) ∨ (keep = bw ∧ rm = aw ∧ s.outer q ≠ aw) := by
    by_cases ho : s.outer q = aw
    · simp only [ho, if_true, Bool.not_false, hW0, hW1, Option.some.injEq] at hk hr
      exact Or.inl ⟨hk.symm, hr.symm, ho⟩
    · simp only [ho, if_false, Bool.not_true, hW0, hW1, Option.some.injEq] at hk hr
      exact Or.inr ⟨hk.symm, hr.symm, ho⟩
  have hpar : ∃ x, (if s.outer q = aw ∨ s.outer q = bw then s.parent keep else some keep) = x := ⟨_, rfl⟩
  have hTree : Tree s → rm ≠ 0 → (∀ c ∈ s.childs rm, c ∈ s.wid.live ∧ c ≠ 0) → s.parent keep ≠ none →
      Tree { s5 with childs := upd s5.childs rp c, wid := m } := by
    intro hT hrm hch hpk
    have : ∃ x, (if s.outer q = aw ∨ s.outer q = bw then s.parent keep else some keep) = some x := by
      split
      · exact Option.ne_none_iff_exists'.1 hpk
      · exact ⟨_, rfl⟩
    obtain ⟨x, hx⟩ := this
    rw [hx] at h6
    have hT5 : Tree s5 := by
      refine setParents_tree ?_ ?_ h6
      · exact hT.frame rfl rfl rfl
      · exact hch
    obtain ⟨hc1, rfl⟩ := removeSet_ok.1 hc
    exact dropWire_tree hT5 hrm hm hc1 (Or.inl hrp)
  refine ⟨?_, ?_, ?_, ?_, aw, bw, q, keep, rm, l, rp, haw, hbw, hawbw, hq, h1 ▸ hq, hkr, ?_⟩
  · rw [h8]
    refine AddSeg.frame (hA.base (s := s) rfl rfl rfl rfl rfl rfl) ?_ ?_ ?_ ?_ ?_ ?_ <;> rfl
  · rw [h8]
    exact hL3.frame rfl rfl rfl rfl rfl
  · rw [h8]
    exact hF3.congr rfl rfl rfl rfl rfl
  · rw [h8]
    exact ⟨hS.1, hS.2, hS.3, hS.4, hS.5, hS.6, hS.7, hS.8⟩
  · have hwa : ∀ d ∈ l, d.1 ≠ e' → s.wire d = some rm := fun d hd hde => (hW d hde).symm.trans (hw d hd)
    refine ⟨?_, hwa, ?_⟩
    · rcases hl with ⟨h9, h10⟩ | ⟨h9, h10, h11, h12⟩
      · exact Or.inl ⟨h9, h10⟩
      · refine Or.inr ⟨h9, h11, ?_⟩
        rw [h8]
        rcases hkr with ⟨_, rfl, ho⟩ | ⟨_, rfl, ho⟩
        · left
          simp only [ho, if_true, Bool.not_false] at h10 h12
          exact ⟨rfl, h10, h12⟩
        · right
          simp only [ho, if_false, Bool.not_true] at h10 h12
          exact ⟨rfl, h10, h12⟩
    · rw [h8]
      refine ⟨?_, ?_, ?_, hm ▸ (by rw [h8]), rfl, rfl, rfl, rfl, fun c => rfl, ?_, ?_⟩
      · intro d hd
        have h6 : d ≠ (e', false) := fun h => hd (by rw [h])
        simp only [upd, Function.update_of_ne h6, hW d hd]
      · simp only [upd, Function.update_self]
      · intro h9
        simp only [upd, Function.update_of_ne (show ((e', true) : HE) ≠ (e', false) by simp)]
        by_cases h10 : (e', true) ∈ l
        · simp [h10]
        · simp only [h10, if_false, hW1]
          rcases hkr with ⟨_, rfl, _⟩ | ⟨h11, _, _⟩
          · exact absurd (h9.resolve_left h10).symm hawbw
          · rw [h11]
      · rw [h8] at hrp
        exact hrp
      · rw [h8] at hTree
        exact hTree

variable [LinearOrder K]

theorem cutOuter_eq {q q' ow lw : Id} {s s' : St K} (h : cutOuter q q' ow lw s = .ok s') :
    ∃ C, s' = { s with
      parent := upd s.parent lw (s.parent ow)
      childs := C
      change := .split q q' } := by
  unfold cutOuter at h
  simp only [bind_ok, Except.ok.injEq] at h
  obtain ⟨s1, h1, rfl⟩ := h
  obtain ⟨C, rfl⟩ := setParent_eq h1
  exact ⟨C, rfl⟩

theorem cutOuter_tree {q q' ow lw : Id} {s s' : St K} (h : cutOuter q q' ow lw s = .ok s') (hT : Tree s)
    (hl : lw ∈ s.wid.live) (hl0 : lw ≠ 0) (ho : ow ∈ s.wid.live) (ho0 : ow ≠ 0) : Tree s' := by
  unfold cutOuter at h
  simp only [bind_ok, Except.ok.injEq] at h
  obtain ⟨s1, h1, rfl⟩ := h
  obtain ⟨x, hx⟩ := Option.ne_none_iff_exists'.1 (hT.non ow ho ho0)
  rw [hx] at h1
  exact (setParent_tree hT hl hl0 h1).frame rfl rfl rfl

theorem cutHole_eq {g : Geom K} {q q' ow lw : Id} {s s' : St K} (h : cutHole g q q' ow lw s = .ok s') :
    ∃ iw uw C inR, ((inR = true ∧ iw = lw ∧ uw = ow) ∨ (inR = false ∧ iw = ow ∧ uw = lw)) ∧
      containsWire g s ow lw = .ok inR ∧ s.parent ow = some (s.outer q) ∧
      s' = { s with
        parent := upd (upd (fun c => if c ∈ s.childs ow then some uw else s.parent c) uw
          (if ow ∈ s.childs ow then some uw else s.parent ow)) iw (some uw)
        childs := C
        wpoly := upd (upd s.wpoly uw (some q)) iw (some q')
        outer := upd s.outer q' iw
        change := .add q q' } := by
  unfold cutHole at h
  simp only [bind_ok, check_ok, Except.ok.injEq] at h
  obtain ⟨_, h1, inR, h2, s1, h3, s2, h4, s3, h5, rfl⟩ := h
  obtain ⟨C1, rfl⟩ := setParents_eq h3
  obtain ⟨C2, rfl⟩ := setParent_eq h4
  obtain ⟨C, rfl⟩ := setParent_eq h5
  refine ⟨if inR then lw else ow, if inR then ow else lw, C, inR, ?_, h2, h1, rfl⟩
  cases inR <;> simp

theorem cutHole_tree {g : Geom K} {q q' ow lw : Id} {s s' : St K} (h : cutHole g q q' ow lw s = .ok s') (hT : Tree s)
    (hl : lw ∈ s.wid.live) (hl0 : lw ≠ 0) (ho : ow ∈ s.wid.live) (ho0 : ow ≠ 0) : Tree s' := by
  unfold cutHole at h
  simp only [bind_ok, check_ok, Except.ok.injEq] at h
  obtain ⟨_, h1, inR, h2, s1, h3, s2, h4, s3, h5, rfl⟩ := h
  have hT1 := setParents_tree hT (fun c hc => ⟨(hT.mem ow ho c hc).1, (hT.mem ow ho c hc).2.1⟩) h3
  obtain ⟨C1, rfl⟩ := setParents_eq h3
  simp only at h4
  have hu : (if inR then ow else lw) ∈ s.wid.live ∧ (if inR then ow else lw) ≠ 0 := by
    cases inR
    · simpa using ⟨hl, hl0⟩
    · simpa using ⟨ho, ho0⟩
  have hi : (if inR then lw else ow) ∈ s.wid.live ∧ (if inR then lw else ow) ≠ 0 := by
    cases inR
    · simpa using ⟨ho, ho0⟩
    · simpa using ⟨hl, hl0⟩
  obtain ⟨x, hx⟩ : ∃ x, (if ow ∈ s.childs ow then some (if inR then ow else lw) else s.parent ow) = some x := by
    split
    · exact ⟨_, rfl⟩
    · exact Option.ne_none_iff_exists'.1 (hT.non ow ho ho0)
  rw [hx] at h4
  have hT2 : Tree s2 := by
    refine setParent_tree ?_ ?_ hu.2 h4
    · exact hT1.frame rfl rfl rfl
    · exact hu.1
  obtain ⟨C2, rfl⟩ := setParent_eq h4
  have hT3 : Tree s3 := setParent_tree hT2 hi.1 hi.2 h5
  exact hT3.frame rfl rfl rfl

/-- The state of `_split_poly` before the nesting of the new polygon is found (decomp.py:556-586). -/
structure SplitPoly (s s1 : St K) (e a b : Id) (ia ib : Ins) (ow lw q q' : Id) (l : List HE) : Prop where
  hia : ia.2.2 = some ow
  hib : ib.2.2 = some ow
  hlw : lw = s.wid.append.1
  hq : q' = s.qid.append.1
  ne : ow ≠ lw
  poly : s.wpoly ow = some q
  add : AddSeg s s1 e a b
  links : Links s1 ∅ ∅
  splice : Spliced s s1 e ia ib
  nd : l.Nodup
  walk : (s.parent ow = none ∧ l = []) ∨
    (s.parent ow ≠ none ∧ Path s1.next ib.2.1 l (e, true) ∧ l ≠ [] ∧ (e, true) ∉ l.tail)
  old : ∀ d ∈ l, d.1 ≠ e → s.wire d = some ow
  olde : (e, true) ∉ l
  wir : ∀ d : HE, d.1 ≠ e → s1.wire d = if d ∈ l then some lw else s.wire d
  wir0 : s1.wire (e, false) = if (e, false) ∈ l then some lw else some ow
  wir1 : s1.wire (e, true) = some lw
  wid : s1.wid = s.wid.append.2
  qid : s1.qid = s.qid.append.2
  outer : s1.outer = upd s.outer q' lw
  wpoly : s1.wpoly = upd s.wpoly lw (some q')
  parent : s1.parent = upd s.parent lw (some lw)
  childs : s1.childs = upd s.childs lw []
  wseg : s1.wseg = upd (upd s.wseg lw (some (e, true))) ow (some (e, false))

theorem splitPoly_start {g : Geom K} {a b e : Id} {ia ib : Ins} {s s' : St K}
    (h : splitPoly g a b ia ib s = .ok (e, s')) (hL : Links s ∅ ∅) (ha : a ∈ s.pid.live) (hb : b ∈ s.pid.live)
    (hF : Free T s) (hQ : T → s.qid.Ok) (hCa : Corner s a ia) (hCb : Corner s b ib) :
    ∃ ow lw q q' l s1 s2 s3, SplitPoly s s1 e a b ia ib ow lw q q' l ∧ Free T s1 ∧
      cut g q q' ow lw s1 = .ok s2 ∧
      splitPoints q' (s2.fpts q) s2 = .ok s3 ∧ splitHoles g q' (s3.childs (s3.outer q)) s3 = .ok s' := by
  unfold splitPoly at h
  simp only [bind_ok, check_ok, need_ok, Except.ok.injEq] at h
  obtain ⟨_, h0, ow, how, ⟨e', s1⟩, h1, s2, h2, s3, h3, st, hst, l, hl, s4, h4, q, hq, s5, h5, s6, h6, s7, h7, h8⟩ := h
  simp only [Prod.mk.injEq] at h8
  obtain ⟨rfl, rfl⟩ := h8
  obtain ⟨hA, hL3, hF3, hS, pp, fp, ps, V, N, W, vc, rfl, hW, hW0, hW1⟩ :=
    splice_eff h1 h2 (wb := some (newWireObj s).1) h3 (hL.frame rfl rfl rfl rfl rfl) ha hb
      (hF.congr rfl rfl rfl rfl rfl) ⟨hCa.1, hCa.2, hCa.3, hCa.4⟩ ⟨hCb.1, hCb.2, hCb.3, hCb.4⟩
  obtain ⟨hln, hl⟩ := wireSegments_sound hl
  obtain ⟨rfl, hw⟩ := relabel_eq hln h4
  simp only [newWireObj] at hl hw hst hW hW0 hW1 hq h5
  have hne : ow ≠ s.wid.append.1 := by
    rintro rfl
    simp [upd] at hq
  have hst' : st = ib.2.1 := by
    have := hS.e1
    simp only at this
    rw [hst] at this
    exact Option.some.inj this
  subst hst'
  simp only [upd, Function.update_of_ne hne] at hl hq
  rw [how] at hW0
  have hel : (e', true) ∉ l := by
    intro h
    have := hw _ h
    rw [hW1] at this
    exact hne (Option.some.inj this).symm
  refine ⟨ow, s.wid.append.1, q, s.qid.append.1, l, _, s5, s6, ?_, ?_, h5, h6, h7⟩
  · constructor
    · exact how
    · rw [← h0]; exact how
    · rfl
    · rfl
    · exact hne
    · exact hq
    · refine AddSeg.frame (hA.base (s := s) rfl rfl rfl rfl rfl rfl) ?_ ?_ ?_ ?_ ?_ ?_ <;> rfl
    · exact hL3.frame rfl rfl rfl rfl rfl
    · exact ⟨hS.1, hS.2, hS.3, hS.4, hS.5, hS.6, hS.7, hS.8⟩
    · exact hln
    · exact hl
    · intro d hd hde
      exact (hW d hde).symm.trans (hw d hd)
    · exact hel
    · intro d hd
      simp only [hW d hd]
    · simp only [hW0]
    · simp only [hW1, ite_self]
    · rfl
    · rfl
    · rfl
    · exact Function.update_idem _ _ _
    · rfl
    · rfl
    · simp only [newWireObj, upd]
      rw [Function.update_idem]
  · refine ⟨fun x => ?_, fun x p hp => ?_, hF3.seg, fun hT p hp x hx => ?_⟩
    · by_cases hx : x = s.qid.append.1
      · subst hx; simp [upd]
      · simpa [upd, hx] using hF3.nd x
    · by_cases hx : x = s.qid.append.1
      · subst hx; simp [upd] at hp
      · exact hF3.mem x p (by simpa [upd, hx] using hp)
    · obtain ⟨h9, h10⟩ := hF3.full hT p hp x hx
      obtain ⟨h11, h12, _⟩ := Ids.append_ok (hQ hT)
      have hxq : x ≠ s.qid.append.1 := fun h => h11 (h ▸ h9)
      refine ⟨?_, by simpa [upd, hxq] using h10⟩
      show x ∈ s.qid.append.2.live
      rw [h12]
      exact List.mem_append_left _ h9

/-- The rest of `_split_poly` changes the nesting and the free points only. -/
theorem splitPoly_rest {g : Geom K} {q q' ow lw : Id} {s1 s2 s3 s' : St K} (hF : Free T s1)
    (hq : T → q' ∈ s1.qid.live)
    (h1 : cut g q q' ow lw s1 = .ok s2)
    (h2 : splitPoints q' (s2.fpts q) s2 = .ok s3) (h3 : splitHoles g q' (s3.childs (s3.outer q)) s3 = .ok s') :
    Free T s' ∧ (s1.parent ow ≠ none → ParLe s1 s') ∧ ∃ P C Q O pp fp c, s' = { s1 with
      parent := P
      childs := C
      wpoly := Q
      outer := O
      ppoly := pp
      fpts := fp
      change := c } := by
  have k1 := fun hp => cut_le h1 hp
  have h4 : ∃ P C Q O c, s2 = { s1 with parent := P, childs := C, wpoly := Q, outer := O, change := c } := by
    unfold cut at h1
    split at h1
    · obtain ⟨C, rfl⟩ := cutOuter_eq h1
      exact ⟨_, _, _, _, _, rfl⟩
    · obtain ⟨iw, uw, C, inR, _, _, _, rfl⟩ := cutHole_eq h1
      exact ⟨_, _, _, _, _, rfl⟩
  obtain ⟨P, C, Q, O, c, rfl⟩ := h4
  obtain ⟨pp, fp, rfl, hF3⟩ := splitPoints_eq (T := T)
    (s := { s1 with parent := P, childs := C, wpoly := Q, outer := O, change := c }) (hF.congr rfl rfl rfl rfl rfl) (fun p hp => hF.pseg hp) hq h2
  have k2 := splitHoles_le h3
  obtain ⟨P', C', Q', rfl, _⟩ := splitHoles_eq h3
  exact ⟨hF3.congr rfl rfl rfl rfl rfl, fun hp x hx => k2 x (k1 hp x hx), _, _, _, _, _, _, _, rfl⟩

end Verif.Decomp
