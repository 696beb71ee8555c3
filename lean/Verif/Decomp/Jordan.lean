import Verif.Decomp.Nested
import Verif.Decomp.Genus
import Mathlib.Data.Fintype.Sets
import Mathlib.Data.Fintype.Prod
import Mathlib.Data.Finset.Card

/-! A segment has the same wire on both sides exactly if nothing else joins its ends. -/
namespace Verif.Decomp

open Equiv Equiv.Perm

section
variable {α : Type} [DecidableEq α]

theorem glued_base (f : Perm α) (l : List (α × α)) {x y : α} (h : f.SameCycle x y) : glued f l x y := by
  induction l with
  | nil => exact h
  | cons p l ih => exact le_glue _ _ _ ih

theorem glued_mem (f : Perm α) {l : List (α × α)} {p : α × α} (h : p ∈ l) : glued f l p.1 p.2 := by
  induction l with
  | nil => cases h
  | cons q l ih =>
    rcases List.mem_cons.1 h with rfl | h
    · exact glue_ab _ _ _
    · exact le_glue _ _ _ (ih h)

theorem glued_le {f : Perm α} {l : List (α × α)} {t : Setoid α} (hf : ∀ x, t x (f x)) (hl : ∀ p ∈ l, t p.1 p.2) {x y : α}
    (h : glued f l x y) : t x y := by
  induction l generalizing x y with
  | nil => exact sameCycle_le hf h
  | cons p l ih => exact glue_le (fun _ _ => ih fun q hq => hl q (List.mem_cons_of_mem _ hq)) (hl p (by simp)) h

end

section
variable {K : Type}

/-- The points are joined by segments from the set. -/
def Joined (s : St K) (E : Id → Prop) : Id → Id → Prop :=
  Relation.ReflTransGen fun p q => ∃ d : HE, d.1 ∈ s.sid.live ∧ E d.1 ∧ s.vtx d = p ∧ s.vtx (flip d) = q

theorem Joined.symm {s : St K} {E : Id → Prop} {p q : Id} (h : Joined s E p q) : Joined s E q p := by
  induction h with
  | refl => exact .refl
  | tail _ h2 ih =>
    obtain ⟨d, h3, h4, h5, h6⟩ := h2
    exact .head ⟨flip d, h3, h4, h6, by rw [flip_flip]; exact h5⟩ ih

/-- Points with a segment that are joined by segments. -/
def linkSetoid (s : St K) : Setoid {p : Id // HasSeg s p} where
  r p q := Joined s (fun _ => True) p.1 q.1
  iseqv := ⟨fun _ => .refl, Joined.symm, fun h1 h2 => h1.trans h2⟩

/-- The number of connected components of the drawn lines. -/
noncomputable def components (s : St K) : Nat := Nat.card (Quotient (linkSetoid s))

/-- Sides of existing segments. -/
abbrev Dart (s : St K) : Type := {i : Id // i ∈ s.sid.live} × Bool

variable {s : St K}

/-- The side as a pair. -/
def Dart.he (x : Dart s) : HE := (x.1.1, x.2)

theorem Dart.he_inj {x y : Dart s} (h : x.he = y.he) : x = y := by
  obtain ⟨⟨i, hi⟩, a⟩ := x
  obtain ⟨⟨j, hj⟩, b⟩ := y
  simp only [Dart.he, Prod.mk.injEq] at h
  obtain ⟨rfl, rfl⟩ := h
  rfl

/-- A side of an existing segment. -/
def dart (d : HE) (hd : d.1 ∈ s.sid.live) : Dart s := (⟨d.1, hd⟩, d.2)

theorem dart_he (d : HE) (hd : d.1 ∈ s.sid.live) : (dart d hd : Dart s).he = d := rfl

/-- The other side. -/
def flipD (x : Dart s) : Dart s := (x.1, !x.2)

/-- The next side. -/
noncomputable def nextD (hL : Links s ∅ ∅) (x : Dart s) : Dart s :=
  dart (Classical.choose (hL.next_ok (d := x.he) x.1.2 (by simp)))
    (Classical.choose_spec (hL.next_ok (d := x.he) x.1.2 (by simp))).2.1

theorem nextD_ok (hL : Links s ∅ ∅) (x : Dart s) :
    s.next x.he = some (nextD hL x).he ∧ s.vtx (flipD (nextD hL x)).he = s.vtx x.he := by
  have := Classical.choose_spec (hL.next_ok (d := x.he) x.1.2 (by simp))
  exact ⟨this.1, this.2.2.1⟩

theorem rotD_bij (hL : Links s ∅ ∅) : Function.Bijective fun x : Dart s => flipD (nextD hL x) := by
  rw [← Finite.injective_iff_bijective]
  intro x y h
  have h1 : nextD hL x = nextD hL y := by
    have := congrArg flipD h
    simpa [flipD] using this
  refine Dart.he_inj (hL.next_inj x.1.2 y.1.2 (by simp) (by simp) ?_)
  rw [(nextD_ok hL x).1, (nextD_ok hL y).1, h1]

/-- The rotation around points. -/
noncomputable def rotP (hL : Links s ∅ ∅) : Perm (Dart s) := Equiv.ofBijective _ (rotD_bij hL)

theorem rotP_apply (hL : Links s ∅ ∅) (x : Dart s) : rotP hL x = flipD (nextD hL x) := rfl

/-- The sides of a segment. -/
def pairD (i : {i : Id // i ∈ s.sid.live}) : Dart s × Dart s := ((i, false), (i, true))

theorem swaps_apply (f : Perm (Dart s)) {l : List {i : Id // i ∈ s.sid.live}} (hl : l.Nodup) (x : Dart s) :
    swaps f (l.map pairD) x = if (f x).1 ∈ l then flipD (f x) else f x := by
  induction l with
  | nil => simp [swaps]
  | cons i l ih =>
    have hi := (List.nodup_cons.1 hl).1
    simp only [List.map_cons, swaps, Perm.mul_apply, ih (List.nodup_cons.1 hl).2, pairD]
    by_cases h1 : (f x).1 ∈ l
    · have h2 : (f x).1 ≠ i := fun hh => hi (hh ▸ h1)
      rw [if_pos h1, if_pos (List.mem_cons_of_mem _ h1), swap_apply_of_ne_of_ne]
      · intro hh; exact h2 (congrArg Prod.fst hh)
      · intro hh; exact h2 (congrArg Prod.fst hh)
    · rw [if_neg h1]
      by_cases h2 : (f x).1 = i
      · rw [if_pos (by rw [h2]; simp)]
        have h3 : f x = (i, (f x).2) := by rw [← h2]
        cases hb : (f x).2
        · rw [h3, hb, swap_apply_left]; rfl
        · rw [h3, hb, swap_apply_right]; rfl
      · rw [if_neg (by simp [h1, h2]), swap_apply_of_ne_of_ne]
        · intro hh; exact h2 (congrArg Prod.fst hh)
        · intro hh; exact h2 (congrArg Prod.fst hh)

theorem path_cycle {g : HE → Option HE} {f : Perm (Dart s)} (hg : ∀ x : Dart s, g x.he = some (f x).he) {l : List HE} :
    ∀ {x y : Dart s} {b : HE}, Path g x.he l b → y.he ∈ l → f.SameCycle x y := by
  induction l with
  | nil => intro x y b _ h; cases h
  | cons z l ih =>
    intro x y b h hy
    obtain ⟨h1, k, hk, h2⟩ := h
    rcases List.mem_cons.1 hy with hy | hy
    · rw [Dart.he_inj (hy.trans h1.symm)]
    · rw [← h1, hg] at hk
      obtain rfl := Option.some.inj hk
      exact (SameCycle.refl f x).apply_right.trans (ih h2 hy)

/-- Sides at one point are in one cycle of the rotation. -/
theorem rot_same (hL : Links s ∅ ∅) {x y : Dart s} (h : s.vtx x.he = s.vtx y.he) : (rotP hL).SameCycle x y := by
  obtain ⟨l, hr, _⟩ := hL.ring _ (hL.vlive x.he x.1.2)
  obtain ⟨l', h1, h2, _⟩ := hr.from ((hr.mem x.he).2 ⟨x.1.2, rfl, by simp⟩)
  refine path_cycle (g := rot s) (fun z => ?_) h1 (h2.mem_iff.2 ((hr.mem y.he).2 ⟨y.1.2, h.symm, by simp⟩))
  rw [rot_of_next (nextD_ok hL z).1]
  rfl

theorem rot_vtx (hL : Links s ∅ ∅) {x y : Dart s} (h : (rotP hL).SameCycle x y) : s.vtx x.he = s.vtx y.he :=
  sameCycle_le (t := Setoid.ker fun z : Dart s => s.vtx z.he) (fun z => (nextD_ok hL z).2.symm) h

/-- Sides starting at joined points. -/
def joinSetoid (s : St K) (E : Id → Prop) : Setoid (Dart s) where
  r a b := Joined s E (s.vtx a.he) (s.vtx b.he)
  iseqv := ⟨fun _ => .refl, Joined.symm, fun h1 h2 => h1.trans h2⟩

/-- Sides in one class of the gluing start at joined points, and the other way round. -/
theorem glued_iff (hL : Links s ∅ ∅) {E : Id → Prop} {l : List {i : Id // i ∈ s.sid.live}} (hl : ∀ i, i ∈ l ↔ E i.1) (x y : Dart s) :
    glued (rotP hL) (l.map pairD) x y ↔ Joined s E (s.vtx x.he) (s.vtx y.he) := by
  constructor
  · intro h
    refine glued_le (t := joinSetoid s E) (fun z => ?_) (fun p hp => ?_) h
    · change Joined s E _ _
      rw [rotP_apply, (nextD_ok hL z).2]
      exact .refl
    · obtain ⟨i, hi, rfl⟩ := List.mem_map.1 hp
      exact .single ⟨(i.1, false), i.2, (hl i).1 hi, rfl, rfl⟩
  · generalize hp : s.vtx x.he = p
    generalize hq : s.vtx y.he = q
    intro h
    induction h generalizing y with
    | refl => exact glued_base _ _ (rot_same hL (hp.trans hq.symm))
    | tail _ h2 ih =>
      obtain ⟨d, h3, h4, h5, h6⟩ := h2
      have h7 := ih (dart d h3) h5
      have h8 : glued (rotP hL) (l.map pairD) (flipD (dart d h3)) y := glued_base _ _ (rot_same hL (h6.trans hq.symm))
      have h9 := glued_mem (rotP hL) (List.mem_map_of_mem (f := pairD) ((hl ⟨d.1, h3⟩).2 h4))
      refine Setoid.trans' _ h7 (Setoid.trans' _ ?_ h8)
      obtain ⟨i, b⟩ := d
      cases b
      · exact h9
      · exact Setoid.symm' _ h9

/-- The segments other than `e`. -/
def restD (s : St K) (e : {i : Id // i ∈ s.sid.live}) : List {i : Id // i ∈ s.sid.live} := s.sid.live.attach.erase e

theorem attach_nd (hL : Links s ∅ ∅) : s.sid.live.attach.Nodup := List.nodup_attach.2 hL.sids.nd

theorem restD_mem (hL : Links s ∅ ∅) (e i : {i : Id // i ∈ s.sid.live}) : i ∈ restD s e ↔ i.1 ≠ e.1 := by
  rw [restD, (attach_nd hL).mem_erase_iff]
  simp [Subtype.ext_iff]

/-- The permutation `next`. -/
noncomputable def nextP (hL : Links s ∅ ∅) : Perm (Dart s) := swaps (rotP hL) (s.sid.live.attach.map pairD)

theorem nextP_apply (hL : Links s ∅ ∅) (x : Dart s) : nextP hL x = nextD hL x := by
  rw [nextP, swaps_apply _ (attach_nd hL), if_pos (List.mem_attach _ _), rotP_apply]
  simp [flipD]

theorem swaps_rest (hL : Links s ∅ ∅) (e : {i : Id // i ∈ s.sid.live}) :
    swaps (rotP hL) ((restD s e).map pairD) = swap (e, false) (e, true) * nextP hL := by
  have h1 : (e :: restD s e).Nodup := List.nodup_cons.2 ⟨by simp [restD_mem hL], (attach_nd hL).erase _⟩
  have h2 : nextP hL = swaps (rotP hL) ((e :: restD s e).map pairD) := by
    ext1 x
    rw [nextP_apply, swaps_apply _ h1, if_pos]
    · rw [rotP_apply]; simp [flipD]
    · rw [List.mem_cons, restD_mem hL, Subtype.ext_iff]
      exact em _
  rw [h2, List.map_cons, swaps]
  change _ = swap (e, false) (e, true) * (swap (e, false) (e, true) * _)
  rw [← mul_assoc, swap_mul_self, one_mul]

theorem next_cycle (hL : Links s ∅ ∅) (hW : Wires s) {x y : Dart s} : (nextP hL).SameCycle x y ↔ s.wire x.he = s.wire y.he := by
  constructor
  · exact sameCycle_le (t := Setoid.ker fun z : Dart s => s.wire z.he)
      (fun z => by rw [nextP_apply]; exact (hW.next_wire z.1.2 (nextD_ok hL z).1).2.symm)
  · intro h
    obtain ⟨w, h1, h2, h3⟩ := hW.lab x.he x.1.2
    obtain ⟨l, hl⟩ := hW.cyc w h2 h3
    obtain ⟨a, ha⟩ := hl.path
    have hal : a ∈ l := by
      cases l with
      | nil => exact absurd rfl hl.ne
      | cons z l => rw [ha.1]; simp
    have hg : ∀ z : Dart s, s.next z.he = some (nextP hL z).he := fun z => by rw [nextP_apply]; exact (nextD_ok hL z).1
    have hal' := ((hl.mem a).1 hal).1
    have h4 := path_cycle hg (x := dart a hal') (y := x) ha ((hl.mem _).2 ⟨x.1.2, h1⟩)
    have h5 := path_cycle hg (x := dart a hal') (y := y) ha ((hl.mem _).2 ⟨y.1.2, h ▸ h1⟩)
    exact h4.symm.trans h5

/-- Two wires on the sides of a segment: the rest of a wire joins its ends. -/
theorem joined_of_wires (hL : Links s ∅ ∅) (hW : Wires s) {e : Id} (he : e ∈ s.sid.live)
    (h : s.wire (e, false) ≠ s.wire (e, true)) : Joined s (· ≠ e) (s.vtx (e, false)) (s.vtx (e, true)) := by
  have h1 : ¬ (nextP hL).SameCycle (dart (e, false) he) (dart (e, true) he) := fun hh => h ((next_cycle hL hW).1 hh)
  have h2 := swap_joins h1
  have h3 := swaps_rest hL ⟨e, he⟩
  rw [show swap (dart (e, false) he) (dart (e, true) he) * nextP hL = _ from h3.symm] at h2
  exact (glued_iff hL (fun i => restD_mem hL ⟨e, he⟩ i) _ _).1 (swaps_le _ _ h2)

theorem card_live {l : List Id} (hl : l.Nodup) (P : Id → Prop) [DecidablePred P] :
    Nat.card {i : Id // i ∈ l ∧ P i} = (l.filter P).length := by
  rw [Nat.card_congr (Equiv.subtypeEquivRight (q := fun i => i ∈ (l.filter P).toFinset) (by simp)), Nat.card_eq_fintype_card,
    Fintype.card_coe, List.toFinset_card_of_nodup (hl.filter _)]

theorem next_count (hL : Links s ∅ ∅) (hW : Wires s) (hw : s.wid.Ok) : s.wid.live.length ≤ cycles (nextP hL) + 1 := by
  classical
  have h1 : ∀ w : {w : Id // w ∈ s.wid.live ∧ w ≠ 0}, ∃ x : Dart s, s.wire x.he = some w.1 := fun w => by
    obtain ⟨d, _, h2, h3⟩ := hW.seg w.1 w.2.1 w.2.2
    exact ⟨dart d h2, h3⟩
  choose f hf using h1
  have h2 : Function.Injective fun w => (Quotient.mk (SameCycle.setoid (nextP hL)) (f w)) := fun a b h => by
    have := (next_cycle hL hW).1 (Quotient.exact h)
    rw [hf, hf] at this
    exact Subtype.ext (Option.some.inj this)
  have h3 := Nat.card_le_card_of_injective _ h2
  rw [card_live hw.nd] at h3
  have h4 := hw.nd.erase_eq_filter 0
  have h5 := List.length_erase_of_mem hW.root
  have h6 : (s.wid.live.filter fun w => decide (w ≠ 0)) = s.wid.live.erase 0 := by
    rw [h4]
    refine List.filter_congr fun w _ => ?_
    by_cases hh : w = 0 <;> simp [hh]
  rw [h6, h5] at h3
  change _ ≤ Nat.card (Quotient (SameCycle.setoid (nextP hL))) + 1
  omega

theorem rot_count (hL : Links s ∅ ∅) (hp : s.pid.Ok) : verts s ≤ cycles (rotP hL) := by
  classical
  have h1 : ∀ p : {p : Id // p ∈ s.pid.live ∧ (s.pseg p).isSome = true}, ∃ x : Dart s, s.vtx x.he = p.1 := fun p => by
    obtain ⟨d, h2, h3⟩ := (hL.hasSeg p.2.1).1 (Option.isSome_iff_ne_none.1 p.2.2)
    exact ⟨dart d h2, h3⟩
  choose f hf using h1
  have h2 : Function.Injective fun w => (Quotient.mk (SameCycle.setoid (rotP hL)) (f w)) := fun a b h => by
    have := rot_vtx hL (Quotient.exact h)
    rw [hf, hf] at this
    exact Subtype.ext this
  have h3 := Nat.card_le_card_of_injective _ h2
  rw [card_live hp.nd] at h3
  rw [verts, List.countP_eq_length_filter]
  refine le_trans (le_of_eq ?_) h3
  congr 1
  exact List.filter_congr fun p _ => by simp

/-- If every two sides of a segment are in one class, then there are at most as many classes as holes. -/
theorem glued_count [Field K] (h : Nested s) {E : Id → Prop} {l : List {i : Id // i ∈ s.sid.live}} (hl : ∀ i, i ∈ l ↔ E i.1)
    (ha : ∀ e ∈ s.sid.live, Joined s E (s.vtx (e, false)) (s.vtx (e, true))) :
    classes (glued (rotP h.inv.links) (l.map pairD)) + s.qid.live.length ≤ s.wid.live.length := by
  classical
  have hL := h.inv.links
  let G := glued (rotP hL) (l.map pairD)
  have hflip : ∀ x : Dart s, G x (flipD x) := fun x => by
    refine (glued_iff hL hl _ _).2 ?_
    obtain ⟨i, b⟩ := x
    cases b
    · exact ha i.1 i.2
    · exact (ha i.1 i.2).symm
  have hrot : ∀ x y : Dart s, (rotP hL).SameCycle x y → G x y := fun _ _ => glued_base _ _
  have hnext : ∀ x : Dart s, G x (nextP hL x) := fun x => by
    have h1 := hrot x _ (SameCycle.refl _ x).apply_right
    have h2 := hflip (rotP hL x)
    rw [nextP_apply]
    rw [rotP_apply] at h1 h2
    simpa [flipD] using Setoid.trans' _ h1 h2
  have hwire : ∀ x y : Dart s, s.wire x.he = s.wire y.he → G x y := fun x y hh =>
    sameCycle_le hnext ((next_cycle hL h.wires).2 hh)
  have hshare : ∀ u v, Relation.ReflTransGen (Share s) u v → ∀ x y : Dart s, s.wire x.he = some u → s.wire y.he = some v → G x y := by
    intro u v huv
    induction huv with
    | refl => exact fun x y h1 h2 => hwire x y (h1.trans h2.symm)
    | tail _ h2 ih =>
      intro x y hx hy
      obtain ⟨d, h3, h4, h5⟩ := h2
      have h6 := ih x (dart d h3) hx h4
      have h7 := hwire (flipD (dart d h3)) y (h5.trans hy.symm)
      exact Setoid.trans' _ h6 (Setoid.trans' _ (hflip _) h7)
  have hN := h.nest
  have hne : ∀ w : {w : Id // w ∈ s.wid.live ∧ ¬ Around (· ∈ s.qid.live) s.outer w}, ∃ x : Dart s, s.wire x.he = some w.1 := fun w => by
    obtain ⟨d, _, h2, h3⟩ := h.wires.seg w.1 w.2.1 (fun hh => w.2.2 ⟨0, hN.q0, by rw [hh]; exact hN.o0⟩)
    exact ⟨dart d h2, h3⟩
  choose f hf using hne
  have hsur : Function.Surjective fun w => Quotient.mk G (f w) := by
    intro c
    obtain ⟨x, rfl⟩ := Quotient.exists_rep c
    obtain ⟨w, h1, h2, h3⟩ := h.wires.lab x.he x.1.2
    by_cases hA : Around (· ∈ s.qid.live) s.outer w
    · obtain ⟨q, hq, rfl⟩ := hA
      obtain ⟨v, hv, hvl⟩ := hN.up _ h2 h3
      have hq0 : q ≠ 0 := fun hh => h3 (by rw [hh]; exact hN.o0)
      have h4 := hN.hole q hq hq0 v hv
      refine ⟨⟨v, hvl, h4⟩, Quotient.sound ?_⟩
      exact Setoid.symm' _ (hshare _ _ (hN.comp q hq hq0 v hv) _ _ h1 (hf _))
    · refine ⟨⟨w, h2, hA⟩, Quotient.sound ?_⟩
      exact hwire _ _ ((hf _).trans h1.symm)
  have hfin : Finite {w : Id // w ∈ s.wid.live ∧ ¬ Around (· ∈ s.qid.live) s.outer w} :=
    Finite.of_injective (fun w => (⟨w.1, w.2.1⟩ : {i : Id // i ∈ s.wid.live})) fun a b hh => by
      simp only [Subtype.mk.injEq] at hh
      exact Subtype.ext hh
  have h5 := Nat.card_le_card_of_surjective _ hsur
  rw [card_live h.inv.wids.nd] at h5
  have h6 : (s.wid.live.filter fun w => ¬ Around (· ∈ s.qid.live) s.outer w).length + s.qid.live.length ≤ s.wid.live.length := by
    rw [← List.length_map (f := s.outer) (as := s.qid.live), ← List.length_append]
    refine (List.Nodup.subperm (List.Nodup.append (h.inv.wids.nd.filter _) ?_ ?_) ?_).length_le
    · exact List.Nodup.map_on (fun q hq q' hq' => hN.out_inj hq hq') h.inv.qids.nd
    · intro w hw hw'
      obtain ⟨q, hq, rfl⟩ := List.mem_map.1 hw'
      exact (of_decide_eq_true (List.mem_filter.1 hw).2) ⟨q, hq, rfl⟩
    · intro w hw
      rcases List.mem_append.1 hw with hw | hw
      · exact (List.mem_filter.1 hw).1
      · obtain ⟨q, hq, rfl⟩ := List.mem_map.1 hw
        exact (hN.outs q hq).1
  change Nat.card (Quotient G) + _ ≤ _
  omega

/-- One wire on both sides of a segment: nothing else joins its ends. -/
theorem bridge_of_wire [Field K] (h : Nested s) {e : Id} (he : e ∈ s.sid.live) (hw : s.wire (e, false) = s.wire (e, true)) :
    ¬ Joined s (· ≠ e) (s.vtx (e, false)) (s.vtx (e, true)) := by
  intro hj
  have hL := h.inv.links
  have h1 := cycles_cut (f := nextP hL) (a := dart (e, false) he) (b := dart (e, true) he) (fun hh => by simp [dart] at hh)
    ((next_cycle hL h.wires).2 hw)
  rw [show swap (dart (e, false) he) (dart (e, true) he) * nextP hL = _ from (swaps_rest hL ⟨e, he⟩).symm] at h1
  have h2 := next_count hL h.wires h.inv.wids
  have h3 := rot_count hL h.inv.pids
  have h4 := euler_le (rotP hL) ((restD s ⟨e, he⟩).map pairD)
  have h5 := glued_count h (fun i => restD_mem hL ⟨e, he⟩ i) fun i hi => by
    by_cases hie : i = e
    · rw [hie]; exact hj
    · exact .single ⟨(i, false), hi, hie, rfl, rfl⟩
  have h6 := h.inv.euler
  have h7 : ((restD s ⟨e, he⟩).map pairD).length + 1 = s.sid.live.length := by
    rw [List.length_map, restD, List.length_erase_of_mem (List.mem_attach _ _), List.length_attach]
    have := List.length_pos_of_mem he
    omega
  omega

/-- Both sides of a segment have one wire exactly if no other segments join its ends. -/
theorem wire_iff_bridge [Field K] (h : Nested s) {e : Id} (he : e ∈ s.sid.live) :
    s.wire (e, false) = s.wire (e, true) ↔ ¬ Joined s (· ≠ e) (s.vtx (e, false)) (s.vtx (e, true)) :=
  ⟨bridge_of_wire h he, fun hj => by_contra fun hw => hj (joined_of_wires h.inv.links h.wires he hw)⟩

theorem classes_components (hL : Links s ∅ ∅) {l : List {i : Id // i ∈ s.sid.live}} (hl : ∀ i, i ∈ l ↔ True) :
    classes (glued (rotP hL) (l.map pairD)) = components s := by
  refine Nat.card_congr ⟨Quotient.lift (fun x : Dart s => Quotient.mk (linkSetoid s) ⟨s.vtx x.he, x.he, x.1.2, rfl⟩) ?_,
    Quotient.lift (fun p => Quotient.mk _ (dart (Classical.choose p.2) (Classical.choose_spec p.2).1)) ?_, ?_, ?_⟩
  · exact fun a b hh => Quotient.sound ((glued_iff hL (E := fun _ => True) hl a b).1 hh)
  · intro p q hh
    refine Quotient.sound ((glued_iff hL (E := fun _ => True) hl _ _).2 ?_)
    rw [dart_he, dart_he, (Classical.choose_spec p.2).2, (Classical.choose_spec q.2).2]
    exact hh
  · intro c
    obtain ⟨x, rfl⟩ := Quotient.exists_rep c
    refine Quotient.sound ((glued_iff hL (E := fun _ => True) hl _ _).2 ?_)
    rw [dart_he, (Classical.choose_spec (⟨x.he, x.1.2, rfl⟩ : HasSeg s (s.vtx x.he))).2]
    exact .refl
  · intro c
    obtain ⟨p, rfl⟩ := Quotient.exists_rep c
    refine Quotient.sound ?_
    change Joined s _ (s.vtx (Classical.choose p.2)) _
    rw [(Classical.choose_spec p.2).2]
    exact .refl

/-- The number of components of the lines is the number of wires that are not around a polygon. -/
theorem components_wires [Field K] (h : Nested s) : components s + s.qid.live.length = s.wid.live.length := by
  have hL := h.inv.links
  have hl : ∀ i : {i : Id // i ∈ s.sid.live}, i ∈ s.sid.live.attach ↔ True := fun i => by simp
  have h1 := glued_count h (E := fun _ => True) hl fun i hi => .single ⟨(i, false), hi, trivial, rfl, rfl⟩
  have h2 := next_count hL h.wires h.inv.wids
  have h3 := rot_count hL h.inv.pids
  have h4 := euler_le (rotP hL) (s.sid.live.attach.map pairD)
  have h6 := h.inv.euler
  rw [List.length_map, List.length_attach] at h4
  rw [classes_components hL hl] at h1 h4
  change cycles (nextP hL) + _ ≤ _ at h4
  omega

end
end Verif.Decomp
