import Verif.Plane.Wire
import Mathlib.Algebra.BigOperators.Group.Finset.Basic
import Mathlib.Algebra.BigOperators.Ring.Finset
import Mathlib.Data.ZMod.Basic
import Mathlib.Algebra.Ring.Parity
import Mathlib.Data.Finset.Prod
import Mathlib.Tactic.Abel

/-! The number of sides of a wire met by the ray of `Wire.contains_point`, modulo two. -/

namespace Verif.Decomp
open Verif.Plane

section
variable {K : Type} [Field K] [LinearOrder K]

/-- The ray to the right of `x` meets the segment, by `Segment.is_on_x_line` (segment.py:28-49). -/
def hit (s : St K) (x : K × K) (e : Id) : Bool := isOnXLine (s.xy (s.vtx (e, false))) (s.xy (s.vtx (e, true))) x

/-- Both sides of all segments. -/
def darts (s : St K) : Finset HE := s.sid.live.toFinset ×ˢ Finset.univ

omit [Field K] [LinearOrder K] in
theorem mem_darts {s : St K} {d : HE} : d ∈ darts s ↔ d.1 ∈ s.sid.live := by simp [darts]

/-- One if the number of sides of the wire `w` met by the ray from `x` is odd. -/
def cnt (s : St K) (x : K × K) (w : Id) : ZMod 2 := ∑ d ∈ darts s, if s.wire d = some w ∧ hit s x d.1 = true then 1 else 0

/-- No segment passes through `x`. -/
def Off (s : St K) (x : K × K) : Prop := ∀ e ∈ s.sid.live, ¬ OnSeg (s.xy (s.vtx (e, false))) (s.xy (s.vtx (e, true))) x

/-- The straight path meets no segment. -/
def Clear (s : St K) (x y : K × K) : Prop := ∀ e ∈ s.sid.live, Apart (s.xy (s.vtx (e, false))) (s.xy (s.vtx (e, true))) x y

omit [Field K] [LinearOrder K] in
theorem zmod2 (a : ZMod 2) : a = 0 ∨ a = 1 := by
  revert a
  decide

theorem cnt_none {s : St K} {x : K × K} {w : Id} (h : ∀ d : HE, d.1 ∈ s.sid.live → s.wire d ≠ some w) : cnt s x w = 0 :=
  Finset.sum_eq_zero fun d hd => if_neg fun hh => h d (mem_darts.1 hd) hh.1

variable [IsStrictOrderedRing K]

theorem Clear.symm {s : St K} {x y : K × K} (h : Clear s x y) : Clear s y x := fun e he => (h e he).swapR

theorem Clear.off {s : St K} {x y : K × K} (h : Clear s x y) : Off s x := fun e he hh => h e he x hh (OnSeg.left x y)

/-- The answer of `Wire.contains_point`. -/
theorem contains_cnt {s : St K} (hL : Links s ∅ ∅) (hW : Wires s) {w : Id} (hw : w ∈ s.wid.live) (h0 : w ≠ 0) (x : K × K) :
    containsPoint s w x = .ok (decide (cnt s x w = 1)) := by
  obtain ⟨l, h1, h2, h3, _⟩ := wire_walk_of hL hW hw h0
  unfold containsPoint
  rw [if_neg (hW.par w hw h0), h1]
  simp only [bind, Except.bind, Except.ok.injEq]
  rw [decide_eq_decide]
  have hc : cnt s x w = ((l.filter fun h => isOnXLine (s.xy (s.vtx (h.1, false))) (s.xy (s.vtx (h.1, true))) x).length : ZMod 2) := by
    unfold cnt
    rw [Finset.sum_boole]
    congr 1
    rw [← List.toFinset_card_of_nodup (h2.filter _)]
    congr 1
    ext d
    rw [Finset.mem_filter, mem_darts, List.mem_toFinset, List.mem_filter, h3, and_assoc]
    rfl
  rw [hc, ZMod.natCast_eq_one_iff_odd, Nat.odd_iff]

/-- A straight path that meets no segment changes nothing. -/
theorem cnt_path {s : St K} (hL : Links s ∅ ∅) (hW : Wires s) {x y : K × K} (hc : Clear s x y) : cnt s x = cnt s y := by
  funext w
  by_cases hl : ∃ d : HE, d.1 ∈ s.sid.live ∧ s.wire d = some w
  · obtain ⟨d, hd, hdw⟩ := hl
    obtain ⟨w', h1, hw, h0⟩ := hW.lab d hd
    rw [hdw] at h1
    cases h1
    obtain ⟨b, b', l, e1, e2, _, h4, h5⟩ := contains_crossings_of hL hW hw h0 (p := x) (q := y)
      (fun d h1 _ => Or.inl (hc d.1 h1))
    rw [contains_cnt hL hW hw h0] at e1 e2
    have hl : l = [] := by
      rw [List.eq_nil_iff_forall_not_mem]
      intro d hd
      obtain ⟨a1, _, _, u, t, hu, ht, he⟩ := (h4 d).1 hd
      exact hc d.1 a1 _ ⟨u, hu.1.le, hu.2.le, rfl⟩ ⟨t, ht.1.le, ht.2.le, he⟩
    rw [hl] at h5
    cases e1
    cases e2
    simp only [List.length_nil, Nat.zero_mod, zero_ne_one, iff_false, not_not] at h5
    rw [decide_eq_decide] at h5
    rcases zmod2 (cnt s x w) with k | k <;> rcases zmod2 (cnt s y w) with k' | k' <;> simp_all
  · rw [cnt_none fun d h1 h2 => hl ⟨d, h1, h2⟩, cnt_none fun d h1 h2 => hl ⟨d, h1, h2⟩]

/-- A straight path that crosses one segment changes the wires on the sides of it. -/
theorem cnt_cross {s : St K} (hL : Links s ∅ ∅) (hW : Wires s) {x y : K × K} {d : HE} (hd : d.1 ∈ s.sid.live)
    (hc : ∀ e ∈ s.sid.live, e ≠ d.1 → Apart (s.xy (s.vtx (e, false))) (s.xy (s.vtx (e, true))) x y) (hx : SideCrosses s x y d)
    (w : Id) : cnt s x w = cnt s y w + (if s.wire d = some w then 1 else 0) + (if s.wire (flip d) = some w then 1 else 0) := by
  by_cases hl : ∃ d : HE, d.1 ∈ s.sid.live ∧ s.wire d = some w
  · obtain ⟨k, hk, hkw⟩ := hl
    obtain ⟨w', h1, hw, h0⟩ := hW.lab k hk
    rw [hkw] at h1
    cases h1
    obtain ⟨b, b', l, e1, e2, hn, h4, h5⟩ := contains_crossings_of hL hW hw h0 (p := x) (q := y)
      (fun k h1 _ => by
        by_cases hk : k.1 = d.1
        · right
          unfold SideCrosses at *
          rw [hk]
          exact hx
        · exact Or.inl (hc k.1 h1 hk))
    rw [contains_cnt hL hW hw h0] at e1 e2
    cases e1
    cases e2
    have hfl : flip d ≠ d := by
      obtain ⟨e, v⟩ := d
      cases v <;> simp [flip]
    have hmem : ∀ k : HE, k ∈ l ↔ (k = d ∧ s.wire d = some w) ∨ (k = flip d ∧ s.wire (flip d) = some w) := by
      intro k
      rw [h4]
      constructor
      · rintro ⟨a1, a2, a3⟩
        have : k.1 = d.1 := by
          by_contra hne
          obtain ⟨_, u, t, hu, ht, he⟩ := a3
          exact hc k.1 a1 hne _ ⟨u, hu.1.le, hu.2.le, rfl⟩ ⟨t, ht.1.le, ht.2.le, he⟩
        have hh : k = d ∨ k = flip d := by
          obtain ⟨e, v⟩ := d
          obtain ⟨e', v'⟩ := k
          cases this
          cases v <;> cases v' <;> simp [flip]
        rcases hh with rfl | rfl
        · exact Or.inl ⟨rfl, a2⟩
        · exact Or.inr ⟨rfl, a2⟩
      · rintro (⟨rfl, a2⟩ | ⟨rfl, a2⟩)
        · exact ⟨hd, a2, hx⟩
        · exact ⟨hd, a2, hx⟩
    have hlen : (l.length : ZMod 2) = (if s.wire d = some w then 1 else 0) + (if s.wire (flip d) = some w then 1 else 0) := by
      rw [← List.toFinset_card_of_nodup hn]
      have : l.toFinset = (if s.wire d = some w then {d} else ∅) ∪ (if s.wire (flip d) = some w then {flip d} else ∅) := by
        ext k
        rw [List.mem_toFinset, hmem, Finset.mem_union]
        split_ifs <;> simp_all
      rw [this, Finset.card_union_of_disjoint]
      · split_ifs <;> rfl
      · split_ifs <;> simp [hfl.symm]
    have hodd : ((l.length : ZMod 2) = 1) ↔ l.length % 2 = 1 := by rw [ZMod.natCast_eq_one_iff_odd, Nat.odd_iff]
    rw [add_assoc, ← hlen]
    rw [← hodd, ne_eq, decide_eq_decide] at h5
    rcases zmod2 (cnt s x w) with k | k <;> rcases zmod2 (cnt s y w) with k' | k' <;>
      rcases zmod2 (l.length : ZMod 2) with m | m <;> rw [k, k', m] at h5 ⊢ <;> revert h5 <;> decide
  · have hn : ∀ d : HE, d.1 ∈ s.sid.live → s.wire d ≠ some w := fun d h1 h2 => hl ⟨d, h1, h2⟩
    rw [cnt_none hn, cnt_none hn, if_neg (hn d hd), if_neg (hn (flip d) hd)]
    rfl

/-- Nothing is met from a point beyond all ends. -/
theorem cnt_beyond {s : St K} {x : K × K} (hx : ∀ d : HE, d.1 ∈ s.sid.live → (s.xy (s.vtx d)).1 < x.1) (w : Id) : cnt s x w = 0 := by
  refine Finset.sum_eq_zero fun d hd => if_neg fun hh => ?_
  have h1 := mem_darts.1 hd
  have := odd_beyond (l := [(s.xy (s.vtx (d.1, false)), s.xy (s.vtx (d.1, true)))]) (q := x) (by
    intro e he
    rw [List.mem_singleton] at he
    subst he
    exact ⟨hx (d.1, false) h1, hx (d.1, true) h1⟩)
  have h2 := hh.2
  unfold hit at h2
  simp [odd, h2] at this

end
end Verif.Decomp
