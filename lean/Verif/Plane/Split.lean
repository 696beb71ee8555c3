import Verif.Plane.Half

/-! A wire cut into two by a new segment. -/

namespace Verif.Decomp
open Verif.Plane

section
variable {K : Type} [Field K] [LinearOrder K] [IsStrictOrderedRing K]

/-- The drawing `t` has one more segment, with different wires on its sides, which are one wire in `s`. -/
structure Cut (s t : St K) (e ow lw q : Id) : Prop where
  plus : Plus s t e
  ne : ow ≠ lw
  w0 : t.wire (e, false) = some ow
  w1 : t.wire (e, true) = some lw
  fold : ∀ d : HE, d.1 ∈ s.sid.live → ∃ x, t.wire d = some x ∧ s.wire d = some (if x = lw then ow else x)
  old : ∀ u, u = ow ∨ u = lw → ∃ d : HE, d.1 ∈ s.sid.live ∧ t.wire d = some u
  poly : s.wpoly ow = some q
  owl : ow ∈ s.wid.live
  ow0 : ow ≠ 0

variable {g : Geom K} {s t : St K} {e ow lw q : Id}

theorem Cut.count (h : Cut s t e ow lw q) (x : K × K) (w : Id) :
    cnt s x w = if w = ow then cnt t x ow + cnt t x lw else if w = lw then 0 else cnt t x w := by
  rw [h.plus.less h.ne (k := ow) (Or.inl rfl) (fun d hd => by
    obtain ⟨y, y1, y2⟩ := h.fold d hd
    exact ⟨y, y1, by rw [fold_keep]; exact y2⟩) (fun v => by
      cases v
      · exact Or.inl h.w0
      · exact Or.inr h.w1) x w]
  by_cases h1 : w = ow
  · rw [if_pos h1, if_pos h1]
  · simp only [if_neg h1, h1, false_or]

/-- Points beside the cut wire were in its polygon. -/
theorem Cut.side (hg : ArgOk g) (h : Cut s t e ow lw q) (hG : Good s) (ht : Flat g t) {u : Id} (hu : u = ow ∨ u = lw) {d : HE}
    {x : K × K} (hx : Sees t d x) (hw : t.wire d = some u) : Exact s x q := by
  obtain ⟨d', hd', hw'⟩ := h.old u hu
  obtain ⟨y, hy⟩ := sees_ex ht.links ht.planar (d := d') (h.plus.live _ hd')
  have hc := wire_same hg ht hx.live hw hw' hx hy
  have hy' : Sees s d' y := h.plus.toSub.sees hd' hy
  obtain ⟨z, z1, z2⟩ := h.fold d' hd'
  rw [hw'] at z1
  cases z1
  have hz : (if u = lw then ow else u) = ow := by
    rcases hu with rfl | rfl
    · rw [if_neg h.ne]
    · rw [if_pos rfl]
  rw [hz] at z2
  refine (hG ow d' y q hy' z2 h.poly).congr ?_
  funext w
  rw [h.count, h.count, hc]

/-- The parts of an outer wire are around the parts of its polygon. -/
theorem Cut.outer (hg : ArgOk g) (h : Cut s t e ow lw q) (hG : Good s) (ht : Flat g t) (ho : s.outer q = ow) {u : Id}
    (hu : u = ow ∨ u = lw) {d : HE} {x : K × K} (hx : Sees t d x) (hw : t.wire d = some u) : cnt t x lw = 1 ↔ u = lw := by
  have sum : ∀ {u : Id}, u = ow ∨ u = lw → ∀ {d : HE} {x : K × K}, Sees t d x → t.wire d = some u → cnt t x ow + cnt t x lw = 1 := by
    intro u hu d x hx hw
    have h1 := (h.side hg hG ht hu hx hw ow h.owl).2 (by rw [ho]; exact .refl)
    have h2 := h1.resolve_left h.ow0
    rwa [h.count, if_pos rfl] at h2
  have hel : e ∈ t.sid.live := (h.plus.iff e).2 (Or.inr rfl)
  obtain ⟨xe, hxe⟩ := sees_ex ht.links ht.planar (d := (e, true)) hel
  obtain ⟨ye, hye⟩ := sees_ex ht.links ht.planar (d := (e, false)) hel
  have hcr := sees_cross ht.links ht.wires ht.planar hxe hye
  have s1 := sum (Or.inr rfl) hxe h.w1
  have s2 := sum (Or.inl rfl) hye h.w0
  have c1 := hcr lw
  have c2 := hcr ow
  rw [h.w1, show flip ((e, true) : HE) = (e, false) from rfl, h.w0] at c1 c2
  simp only [Option.some.injEq, h.ne, h.ne.symm, if_true, if_false, add_zero] at c1 c2
  have main : cnt t xe lw = 1 := by
    by_contra hne
    have b0 : cnt t xe lw = 0 := (zmod2 _).resolve_right hne
    have a1 : cnt t xe ow = 1 := by rw [b0, add_zero] at s1; exact s1
    have b1 : cnt t ye lw = 1 := by
      rcases zmod2 (cnt t ye lw) with k | k
      · rw [b0, k] at c1
        exact absurd c1 (by decide)
      · exact k
    have a0 : cnt t ye ow = 0 := by
      rcases zmod2 (cnt t ye ow) with k | k
      · exact k
      · rw [a1, k] at c2
        exact absurd c2 (by decide)
    have := ray_ind ht.links ht.planar (P := fun z => cnt t z lw = 0 ∧ cnt t z ow = 0) (fun z hz => by
        rw [cnt_beyond hz, cnt_beyond hz]; exact ⟨rfl, rfl⟩)
      (fun z y hc hy => by rw [cnt_path ht.links ht.wires hc]; exact hy)
      (fun d z y hz hy hP => by
        obtain ⟨v, hv, _⟩ := ht.wires.lab (flip d) hy.live
        obtain ⟨v', hv', _⟩ := ht.wires.lab d hz.live
        have n1 : v ≠ lw := by
          rintro rfl
          have := wire_same hg ht hy.live hv h.w1 hy hxe
          rw [this, a1] at hP
          exact absurd hP.2 (by decide)
        have n2 : v ≠ ow := by
          rintro rfl
          have := wire_same hg ht hy.live hv h.w0 hy hye
          rw [this, b1] at hP
          exact absurd hP.1 (by decide)
        have hc := sees_cross ht.links ht.wires ht.planar hz hy
        rw [hv, hv'] at hc
        have n3 : v' ≠ lw := by
          rintro rfl
          have := wire_same hg ht hz.live hv' h.w1 hz hxe
          have c := hc v'
          rw [this, b0, hP.1] at c
          simp [n1] at c
        have n4 : v' ≠ ow := by
          rintro rfl
          have := wire_same hg ht hz.live hv' h.w0 hz hye
          have c := hc v'
          rw [this, a0, hP.2] at c
          simp [n2] at c
        rw [hc lw, hc ow]
        simp [n1, n2, n3, n4, hP.1, hP.2]) xe hxe.off
    rw [a1] at this
    exact absurd this.2 (by decide)
  have main' : cnt t ye lw ≠ 1 := by
    intro k
    rw [main, k] at c1
    exact absurd c1 (by decide)
  rcases hu with rfl | rfl
  · rw [wire_same hg ht hx.live hw h.w0 hx hye]
    exact iff_of_false main' h.ne
  · rw [wire_same hg ht hx.live hw h.w1 hx hxe]
    exact iff_of_true main rfl

/-- Of the parts of a hole one is around a new polygon, the one to the left of which `contains_point` is true. -/
theorem Cut.hole (hg : ArgOk g) (h : Cut s t e ow lw q) (hs : Drawn g s) (hG : Good s) (ht : Flat g t)
    (hp : s.parent ow = some (s.outer q)) {xe : K × K} (hxe : Sees t (e, true) xe) {iw : Id}
    (hi : iw = if cnt t xe ow = 1 then lw else ow) {u : Id} (hu : u = ow ∨ u = lw) {d : HE} {x : K × K} (hx : Sees t d x)
    (hw : t.wire d = some u) : cnt t x iw = 1 ↔ u = iw := by
  have hN := hs.nested.nest
  have sum : ∀ {u : Id}, u = ow ∨ u = lw → ∀ {d : HE} {x : K × K}, Sees t d x → t.wire d = some u → cnt t x ow = cnt t x lw := by
    intro u hu d x hx hw
    have h1 : ¬ (ow = 0 ∨ cnt s x ow = 1) := fun hh =>
      (hN.chain ow h.owl).not_anc hN.p0 hp ((h.side hg hG ht hu hx hw ow h.owl).1 hh)
    rw [h.count, if_pos rfl] at h1
    have : ∀ a b : ZMod 2, ¬ a + b = 1 → a = b := by decide
    exact this _ _ fun hh => h1 (Or.inr hh)
  have hel : e ∈ t.sid.live := (h.plus.iff e).2 (Or.inr rfl)
  obtain ⟨ye, hye⟩ := sees_ex ht.links ht.planar (d := (e, false)) hel
  have hcr := sees_cross ht.links ht.wires ht.planar hxe hye
  have s1 := sum (Or.inr rfl) hxe h.w1
  have s2 := sum (Or.inl rfl) hye h.w0
  have c2 := hcr ow
  rw [h.w1, show flip ((e, true) : HE) = (e, false) from rfl, h.w0] at c2
  simp only [Option.some.injEq, h.ne.symm, if_true, if_false, add_zero] at c2
  have key : ∀ a b : ZMod 2, a = b + 1 → (b = 1 ↔ a ≠ 1) := by decide
  have c3 := key _ _ c2
  have at1 : ∀ v, v = ow ∨ v = lw → cnt t xe v = cnt t xe ow := by
    rintro v (rfl | rfl)
    · rfl
    · exact s1.symm
  have at2 : ∀ v, v = ow ∨ v = lw → cnt t ye v = cnt t ye ow := by
    rintro v (rfl | rfl)
    · rfl
    · exact s2.symm
  have hiu : iw = ow ∨ iw = lw := by
    rw [hi]
    split
    · exact Or.inr rfl
    · exact Or.inl rfl
  rcases hu with rfl | rfl
  · rw [wire_same hg ht hx.live hw h.w0 hx hye, at2 iw hiu, c3, hi]
    by_cases k : cnt t xe u = 1
    · simp [k, h.ne]
    · simp [k]
  · rw [wire_same hg ht hx.live hw h.w1 hx hxe, at1 iw hiu, hi]
    by_cases k : cnt t xe ow = 1
    · simp [k]
    · simp [k, h.ne.symm]

end
end Verif.Decomp
