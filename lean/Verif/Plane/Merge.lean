import Verif.Plane.Exact

/-! Counts and chains of parents when segments come and go and wires are merged. -/

namespace Verif.Decomp
open Verif.Plane

/-! ### Counts -/

/-- The label after merging the wires `u` and `r` to `k`. -/
def fold (u r k : Id) (w : Id) : Id := if w = u ∨ w = r then k else w

/-- Number of the sides in `D` with label `w` that are met. -/
def tally (D : Finset HE) (h : HE → Prop) [DecidablePred h] (lab : HE → Option Id) (w : Id) : ZMod 2 :=
  ∑ d ∈ D, if lab d = some w ∧ h d then 1 else 0

theorem tally_congr {D : Finset HE} {h h' : HE → Prop} [DecidablePred h] [DecidablePred h'] {lab lab' : HE → Option Id} {w : Id}
    (hh : ∀ d ∈ D, h d ↔ h' d) (hl : ∀ d ∈ D, lab d = lab' d) : tally D h lab w = tally D h' lab' w := by
  refine Finset.sum_congr rfl fun d hd => ?_
  simp only [hh d hd, hl d hd]

/-- Merging two wires adds the counts. -/
theorem tally_fold {D : Finset HE} {h : HE → Prop} [DecidablePred h] {lab lab' : HE → Option Id} {u r k : Id} (hne : u ≠ r)
    (hl : ∀ d ∈ D, ∃ x, lab d = some x ∧ lab' d = some (fold u r k x)) (hk : k = u ∨ k = r) (w : Id) :
    tally D h lab' w = if w = k then tally D h lab u + tally D h lab r else if w = u ∨ w = r then 0 else tally D h lab w := by
  unfold tally
  by_cases hw : w = k
  · subst hw
    rw [if_pos rfl, ← Finset.sum_add_distrib]
    refine Finset.sum_congr rfl fun d hd => ?_
    obtain ⟨x, h1, h2⟩ := hl d hd
    rw [h1, h2]
    simp only [Option.some.injEq, fold]
    by_cases x1 : x = u
    · have x2 : ¬ x = r := fun hh => hne (x1.symm.trans hh)
      simp [x1, x1 ▸ x2]
    · by_cases x2 : x = r
      · subst x2
        simp [x1]
      · have : x ≠ w := by rcases hk with rfl | rfl <;> assumption
        simp [x1, x2, this]
  · rw [if_neg hw]
    split_ifs with hh
    · refine Finset.sum_eq_zero fun d hd => if_neg fun ⟨k1, _⟩ => ?_
      obtain ⟨x, _, h2⟩ := hl d hd
      rw [h2, Option.some.injEq, fold] at k1
      split_ifs at k1 with k2
      · exact hw k1.symm
      · exact k2 (k1 ▸ hh)
    · refine Finset.sum_congr rfl fun d hd => ?_
      obtain ⟨x, h1, h2⟩ := hl d hd
      rw [h1, h2]
      simp only [Option.some.injEq, fold]
      by_cases k1 : x = u ∨ x = r
      · rw [if_pos k1, if_neg fun hh => hw hh.1.symm, if_neg]
        rintro ⟨rfl, _⟩
        exact hh k1
      · rw [if_neg k1]

/-- A segment with the same wire on both sides does not count. -/
theorem tally_drop {D D' : Finset HE} {h : HE → Prop} [DecidablePred h] {lab : HE → Option Id} {e : Id}
    (hD : ∀ d, d ∈ D ↔ d ∈ D' ∨ d.1 = e) (hne : ∀ d ∈ D', d.1 ≠ e) (hh : h (e, false) ↔ h (e, true))
    (hl : lab (e, false) = lab (e, true)) (w : Id) : tally D h lab w = tally D' h lab w := by
  have hd : D = insert (e, false) (insert (e, true) D') := by
    ext ⟨d, v⟩
    rw [hD]
    simp only [Finset.mem_insert, Prod.mk.injEq]
    cases v <;> simp <;> tauto
  unfold tally
  rw [hd, Finset.sum_insert, Finset.sum_insert]
  · simp only [hl, hh]
    split_ifs
    · rw [← add_assoc, show (1 : ZMod 2) + 1 = 0 by decide, zero_add]
    · rw [zero_add, zero_add]
  · exact fun k => hne _ k rfl
  · simp only [Finset.mem_insert, Prod.mk.injEq, Bool.false_eq_true, and_false, false_or]
    exact fun k => hne _ k rfl

section
variable {K : Type} [Field K] [LinearOrder K]

theorem cnt_tally (s : St K) (x : K × K) (w : Id) : cnt s x w = tally (darts s) (fun d => hit s x d.1 = true) s.wire w := rfl

/-- The segments of `s` are in `t`, at the same places. -/
structure Sub (s t : St K) : Prop where
  live : ∀ e ∈ s.sid.live, e ∈ t.sid.live
  pos : ∀ d : HE, d.1 ∈ s.sid.live → t.xy (t.vtx d) = s.xy (s.vtx d)

/-- `t` has the segments of `s` and `e`. -/
structure Plus (s t : St K) (e : Id) : Prop extends Sub s t where
  fresh : e ∉ s.sid.live
  iff : ∀ j, j ∈ t.sid.live ↔ j ∈ s.sid.live ∨ j = e

theorem AddSeg.plus {s s' : St K} {e a b : Id} (h : AddSeg s s' e a b) : Plus s s' e where
  live := fun j hj => (h.live j).2 (Or.inl hj)
  pos := fun d hd => by rw [h.xy, h.vo d fun hh => h.fresh (hh ▸ hd)]
  fresh := h.fresh
  iff := h.live

omit [Field K] [LinearOrder K] in
theorem DelSeg.plus {s s' : St K} {e : Id} (h : DelSeg s s' e) : Plus s' s e where
  live := fun j hj => ((h.live j).1 hj).2
  pos := fun d _ => by rw [h.xy, h.vtx]
  fresh := fun hh => ((h.live e).1 hh).1 rfl
  iff := fun j => by
    rw [h.live]
    by_cases hj : j = e
    · simp [hj, h.was]
    · simp [hj]

theorem Sub.hit {s t : St K} (h : Sub s t) {e : Id} (he : e ∈ s.sid.live) (x : K × K) : hit t x e = hit s x e := by
  unfold Decomp.hit
  rw [h.pos (e, false) he, h.pos (e, true) he]

/-- The count of the merged wires in the drawing with less segments. -/
theorem Plus.less {s t : St K} {e : Id} (h : Plus s t e) {u r k : Id} (hne : u ≠ r) (hk : k = u ∨ k = r)
    (hl : ∀ d : HE, d.1 ∈ s.sid.live → ∃ x, t.wire d = some x ∧ s.wire d = some (fold u r k x))
    (he : ∀ v, t.wire (e, v) = some u ∨ t.wire (e, v) = some r) (x : K × K) (w : Id) :
    cnt s x w = if w = k then cnt t x u + cnt t x r else if w = u ∨ w = r then 0 else cnt t x w := by
  have h1 : ∀ w, tally (darts t) (fun d => Decomp.hit t x d.1 = true) (fun d => if d.1 = e then some k else s.wire d) w = cnt s x w := by
    intro w
    rw [cnt_tally, tally_drop (D' := darts s) (e := e) (fun d => by rw [mem_darts, mem_darts, h.iff])
      (fun d hd hh => h.fresh (hh ▸ mem_darts.1 hd)) Iff.rfl (by simp)]
    refine tally_congr (fun d hd => ?_) fun d hd => ?_
    · rw [h.hit (mem_darts.1 hd)]
    · exact if_neg fun (hh : d.1 = e) => h.fresh (hh ▸ mem_darts.1 hd)
  rw [← h1, tally_fold (lab := t.wire) hne ?_ hk]
  · rfl
  · intro d hd
    rcases (h.iff _).1 (mem_darts.1 hd) with hd | hd
    · obtain ⟨y, y1, y2⟩ := hl d hd
      exact ⟨y, y1, by rw [if_neg fun (hh : d.1 = e) => h.fresh (hh ▸ hd)]; exact y2⟩
    · rw [if_pos hd]
      obtain ⟨d1, v⟩ := d
      obtain rfl := hd
      rcases he v with k1 | k1
      · exact ⟨u, k1, by simp [Decomp.fold]⟩
      · exact ⟨r, k1, by simp [Decomp.fold]⟩

/-- The count of the merged wires in the drawing with more segments. -/
theorem Plus.more {s t : St K} {e : Id} (h : Plus s t e) {u r k : Id} (hne : u ≠ r) (hk : k = u ∨ k = r)
    (hl : ∀ d : HE, d.1 ∈ s.sid.live → ∃ x, s.wire d = some x ∧ t.wire d = some (fold u r k x))
    (he : t.wire (e, false) = t.wire (e, true)) (x : K × K) (w : Id) :
    cnt t x w = if w = k then cnt s x u + cnt s x r else if w = u ∨ w = r then 0 else cnt s x w := by
  rw [cnt_tally, tally_drop (D' := darts s) (e := e) (fun d => by rw [mem_darts, mem_darts, h.iff])
      (fun d hd hh => h.fresh (hh ▸ mem_darts.1 hd)) Iff.rfl he,
    tally_congr (h' := fun d => Decomp.hit s x d.1 = true) (lab' := t.wire) (fun d hd => by rw [h.hit (mem_darts.1 hd)]) (fun _ _ => rfl),
    tally_fold (lab := s.wire) hne ?_ hk]
  · rfl
  · exact fun d hd => hl d (mem_darts.1 hd)

/-- The count if no wires are merged. -/
theorem Plus.same {s t : St K} {e : Id} (h : Plus s t e) (hl : ∀ d : HE, d.1 ∈ s.sid.live → s.wire d = t.wire d)
    (he : t.wire (e, false) = t.wire (e, true)) (x : K × K) : cnt t x = cnt s x := by
  funext w
  rw [cnt_tally, tally_drop (D' := darts s) (e := e) (fun d => by rw [mem_darts, mem_darts, h.iff])
      (fun d hd hh => h.fresh (hh ▸ mem_darts.1 hd)) Iff.rfl he,
    tally_congr (h' := fun d => Decomp.hit s x d.1 = true) (lab' := s.wire) (fun d hd => by rw [h.hit (mem_darts.1 hd)])
      (fun d hd => (hl d (mem_darts.1 hd)).symm)]
  rfl

theorem Sub.segApart {s t : St K} (h : Sub s t) {e : Id} (he : e ∈ s.sid.live) {x y : K × K} :
    SegApart t e x y ↔ SegApart s e x y := by
  unfold SegApart
  rw [h.pos (e, false) he, h.pos (e, true) he]

/-- With less segments more is seen. -/
theorem Sub.sees {s t : St K} (h : Sub s t) {d : HE} (hd : d.1 ∈ s.sid.live) {x : K × K} (hx : Sees t d x) : Sees s d x := by
  have e1 : org t d = org s d := h.pos (flip d) hd
  have e2 : dst t d = dst s d := h.pos d hd
  have e3 : ∀ τ, onDart t d τ = onDart s d τ := fun τ => by unfold onDart; rw [e1, e2]
  obtain ⟨τ, h0, h1, h2⟩ := hx.sight
  refine ⟨hd, by rw [← e1, ← e2]; exact hx.left, τ, h0, h1, fun j hj hne => ?_⟩
  have := h2 j (h.live j hj) hne
  rw [h.segApart hj, e3] at this
  exact this

end

/-! ### Chains -/

/-- The wires `u` and `r` become the wire `k`, and the other name `o` is free. Either they have the same parent, or `r` is in `u`
and they both vanish for what is in `r`. -/
structure Merge (W : Id → Prop) (par par' : Id → Option Id) (u r k o : Id) (rep : Id → Id) : Prop where
  ne : u ≠ r
  u0 : u ≠ 0
  r0 : r ≠ 0
  names : (k = u ∧ o = r) ∨ (k = r ∧ o = u)
  rep_u : rep u = k
  rep_o : ∀ c, c ≠ u → c ≠ r → rep c = c
  kind : (par u = par r ∧ rep r = k) ∨ (par r = some u ∧ par u = some (rep r))
  pk : par' k = par u
  pc : ∀ c, W c → c ≠ u → c ≠ r → par' c = (par c).map rep

/-- Membership in the merged wires. -/
def Fold (par : Id → Option Id) (u r k o a w : Id) : Prop :=
  w ≠ o ∧ ((w = k ∧ (Anc par a u ↔ ¬ Anc par a r)) ∨ (w ≠ k ∧ Anc par a w))

theorem Merge.anc {W : Id → Prop} {par par' : Id → Option Id} {u r k o : Id} {rep : Id → Id} (h : Merge W par par' u r k o rep)
    (h0 : par 0 = none) (hW : ∀ w p, W w → par w = some p → W p) (hU : ∀ w, W w → Up par w) (w0 : W 0) (wu : W u) (wr : W r)
    {a : Id} (ha : W a) (w : Id) : Anc par' (rep a) w ↔ Fold par u r k o a w := by
  obtain ⟨pu, hpu⟩ : ∃ pu, par u = some pu := by
    cases hU u wu with
    | root => exact absurd rfl h.u0
    | step hp _ => exact ⟨_, hp⟩
  have nu : ¬ Anc par pu u := (hU u wu).not_anc h0 hpu
  have nr : ¬ Anc par pu r := by
    rcases h.kind with ⟨k1, _⟩ | ⟨k1, _⟩
    · exact (hU r wr).not_anc h0 (k1 ▸ hpu)
    · intro hh
      exact (hU r wr).not_anc h0 k1 (.head hpu hh)
  have ku : k = u ∨ k = r := h.names.elim (fun h => .inl h.1) (fun h => .inr h.1)
  have ko : ∀ c, c ≠ k → c ≠ o → c ≠ u ∧ c ≠ r := by
    rcases h.names with ⟨rfl, rfl⟩ | ⟨rfl, rfl⟩
    · exact fun c c1 c2 => ⟨c1, c2⟩
    · exact fun c c1 c2 => ⟨c2, c1⟩
  have kno : k ≠ o := by
    rcases h.names with ⟨rfl, rfl⟩ | ⟨rfl, rfl⟩
    · exact h.ne
    · exact h.ne.symm
  have oo : ∀ c, c ≠ u → c ≠ r → c ≠ k ∧ c ≠ o := by
    rcases h.names with ⟨rfl, rfl⟩ | ⟨rfl, rfl⟩
    · exact fun c c1 c2 => ⟨c1, c2⟩
    · exact fun c c1 c2 => ⟨c2, c1⟩
  have pune : pu ≠ u ∧ pu ≠ r := ⟨fun hh => nu (hh ▸ .refl), fun hh => nr (hh ▸ .refl)⟩
  -- the merged wire
  have hkk : (∀ w, Anc par' pu w ↔ Fold par u r k o pu w) → ∀ w, Anc par' k w ↔ w ≠ o ∧ (w = k ∨ Anc par pu w) := by
    intro hp w
    rw [anc_some (h.pk.trans hpu), hp w]
    unfold Fold
    constructor
    · rintro (rfl | ⟨k1, ⟨rfl, _⟩ | ⟨_, k2⟩⟩)
      · exact ⟨kno, Or.inl rfl⟩
      · exact ⟨k1, Or.inl rfl⟩
      · exact ⟨k1, Or.inr k2⟩
    · rintro ⟨k1, k2⟩
      by_cases hk : w = k
      · exact Or.inl hk
      · exact Or.inr ⟨k1, Or.inr ⟨hk, k2.resolve_left hk⟩⟩
  have main : ∀ a, Up par a → W a → ∀ b, Anc par a b → ∀ w, Anc par' (rep b) w ↔ Fold par u r k o b w := by
    intro a hUp
    induction hUp with
    | root =>
      intro _ b hb w
      rw [anc_none h0] at hb
      subst hb
      rw [h.rep_o 0 h.u0.symm h.r0.symm, anc_none (by rw [h.pc 0 w0 h.u0.symm h.r0.symm, h0]; rfl)]
      unfold Fold
      rw [anc_none h0, anc_none h0, anc_none h0]
      obtain ⟨o1, o2⟩ := oo 0 h.u0.symm h.r0.symm
      constructor
      · rintro rfl
        exact ⟨o2, Or.inr ⟨o1, rfl⟩⟩
      · rintro ⟨_, ⟨_, k2⟩ | ⟨_, k2⟩⟩
        · exact absurd (k2.2 h.r0) h.u0
        · exact k2
    | @step a p hp _ ih =>
      intro ha b hb w
      have wp := hW a p ha hp
      rcases (anc_some hp).1 hb with rfl | hb
      swap
      · exact ih wp b hb w
      by_cases b1 : b = u
      · subst b1
        rw [hpu] at hp
        cases hp
        have IH := ih wp pu .refl
        rw [h.rep_o pu pune.1 pune.2] at IH
        rw [h.rep_u, hkk IH w]
        unfold Fold
        rw [anc_some hpu, anc_some hpu, anc_some hpu]
        refine and_congr_right fun k1 => ?_
        by_cases hk : w = k
        · subst hk
          simp [nr, h.ne.symm]
        · have := (ko w hk k1).1
          simp [hk, this]
      · by_cases b2 : b = r
        · subst b2
          rcases h.kind with ⟨e1, e2⟩ | ⟨e1, e2⟩
          · rw [e1, hp] at hpu
            cases hpu
            have IH := ih wp pu .refl
            rw [h.rep_o pu pune.1 pune.2] at IH
            rw [e2, hkk IH w]
            unfold Fold
            rw [anc_some hp, anc_some hp, anc_some hp]
            refine and_congr_right fun k1 => ?_
            by_cases hk : w = k
            · subst hk
              simp [nu, h.ne]
            · have := (ko w hk k1).2
              simp [hk, this]
          · rw [hp] at e1
            cases e1
            rw [hpu] at e2
            have IH := ih wp pu (.single hpu)
            rw [h.rep_o pu pune.1 pune.2] at IH
            rw [← Option.some.inj e2, IH w]
            unfold Fold
            rw [anc_some hp, anc_some hp, anc_some hp, anc_some hpu, anc_some hpu, anc_some hpu]
            refine and_congr_right fun k1 => ?_
            by_cases hk : w = k
            · subst hk
              simp [nu, nr]
            · obtain ⟨j1, j2⟩ := ko w hk k1
              simp [hk, j1, j2]
        · rw [h.rep_o b b1 b2, anc_some (p := rep p) (by rw [h.pc b ha b1 b2, hp]; rfl), ih wp p .refl w]
          unfold Fold
          rw [anc_some hp, anc_some hp, anc_some hp]
          obtain ⟨o1, o2⟩ := oo b b1 b2
          by_cases hk : w = k
          · subst hk
            simp [Ne.symm b1, Ne.symm b2, Ne.symm o1]
          · by_cases hb : w = b
            · subst hb
              simp [o1, o2]
            · simp [hk, hb]
  exact main a (hU a ha) ha a .refl w

section
variable {K : Type} [Field K] [LinearOrder K]

/-- A point keeps its polygon when wires are merged. -/
theorem Merge.exact {f c : St K} {u r k o : Id} {rep : Id → Id} (h : Merge (· ∈ f.wid.live) f.parent c.parent u r k o rep)
    (hN : NestSt f) (wu : u ∈ f.wid.live) (wr : r ∈ f.wid.live) (hw : ∀ w ∈ c.wid.live, w ∈ f.wid.live ∧ w ≠ o) {x : K × K}
    (hc : ∀ w, w ≠ o → cnt c x w = if w = k then cnt f x u + cnt f x r else cnt f x w) {q q1 : Id} (hq : q ∈ f.qid.live)
    (ho : c.outer q1 = rep (f.outer q)) (he : Exact f x q) : Exact c x q1 := by
  intro w hwl
  obtain ⟨h1, h2⟩ := hw w hwl
  rw [ho, h.anc hN.p0 hN.closed hN.chain hN.w0 wu wr (hN.outs q hq).1 w, hc w h2]
  unfold Fold
  have k0 : k ≠ 0 := by rcases h.names with ⟨rfl, _⟩ | ⟨rfl, _⟩ <;> [exact h.u0; exact h.r0]
  by_cases hk : w = k
  · subst hk
    rw [if_pos rfl, ← he u wu, ← he r wr]
    have : ∀ a b : ZMod 2, a + b = 1 ↔ (a = 1 ↔ ¬ b = 1) := by decide
    simp [k0, h.u0, h.r0, h2, this]
  · rw [if_neg hk, he w h1]
    simp [hk, h2]

end
end Verif.Decomp
