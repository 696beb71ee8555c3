import Verif.Plane.DivideRun
import Verif.Plane.Partition

/-! New and removed segments in a drawing with the right polygons. -/

namespace Verif.Decomp
open Verif.Plane

section
variable {K : Type} [Field K] [LinearOrder K] [IsStrictOrderedRing K]

/-- A drawing in which the polygons beside the sides and of the free points are right. -/
structure Tiled (g : Geom K) (s : St K) : Prop where
  drawn : Drawn g s
  good : Good s
  reg : Reg s

variable {g : Geom K}

omit [IsStrictOrderedRing K] in
theorem Drawn.quiet {s : St K} (h : Drawn g s) : Drawn g (quiet s) :=
  ⟨h.nested.quiet, ⟨h.planar.1, h.planar.2, h.planar.3⟩, ⟨h.fan.1, h.fan.2, h.fan.3, h.fan.4⟩⟩

omit [IsStrictOrderedRing K] in
theorem Tiled.quiet {s : St K} (h : Tiled g s) : Tiled g (quiet s) :=
  ⟨h.drawn.quiet, fun w d x q hx => h.good w d x q ⟨hx.1, hx.2, hx.3⟩, h.reg⟩

omit [IsStrictOrderedRing K] in
/-- Points without segments are off the segments. -/
theorem free_off {s : St K} (h : Drawn g s) {p : Id} (hp : p ∈ s.pid.live) (h0 : s.pseg p = none) : Off s (s.xy p) := by
  rintro e he ⟨u, u0, u1, hu⟩
  obtain ⟨v, hv⟩ := h.planar.on p hp e he u u0 u1 hu
  exact h.links.no_seg hp (by simp) h0 (e, v) he hv

/-- The free points of a divided polygon. -/
theorem Divide.reg (hg : ArgOk g) {s t : St K} {e ow lw q q' iw uw : Id} (h : Divide s t e ow lw q q' iw uw) (hs : Tiled g s)
    (ht : Drawn g t) (hxy : t.xy = s.xy) (hpid : t.pid = s.pid)
    (hpp : ∀ p ∈ s.pid.live, ∀ r, t.ppoly p = some r → (r = q' ∧ s.ppoly p = some q ∧ cnt t (t.xy p) iw = 1) ∨
        (s.ppoly p = some r ∧ (r = q → cnt t (t.xy p) iw ≠ 1))) : Reg t := by
  obtain ⟨n1, n2, n3, n4, n5, n6⟩ := h.names
  have hN := hs.drawn.nested.nest
  have hN' := ht.nested.nest
  have hqq : q ≠ q' := fun hh => h.q2 (hh ▸ h.q1)
  have hiwl : iw ∈ t.wid.live := by
    rcases n5 with k | k <;> rw [k]
    · exact (h.wl _).2 (Or.inl h.cut.owl)
    · exact (h.wl _).2 (Or.inr rfl)
  intro p hp r hr
  have hp' : p ∈ s.pid.live := hpid ▸ hp
  have h0 : t.pseg p = none := (ht.nested.free.seg p hp).2 (by rw [hr]; simp)
  obtain ⟨p1, hp1, he⟩ := exact_ex ht (h.good hg hs.drawn hs.good ht) (free_off ht hp h0)
  have hold := h.exact hN hN' hp1 he
  have live : (if p1 = q' then q else p1) ∈ s.qid.live := by
    by_cases k : p1 = q'
    · rw [if_pos k]; exact h.q1
    · rw [if_neg k]; exact ((h.ql p1).1 hp1).resolve_right k
  have hoq' : t.outer q' = iw := by rw [h.outer, if_pos rfl]
  have hoq : t.outer q = s.outer q := by rw [h.outer, if_neg hqq]
  have hx1 := he iw hiwl
  have k1 : p1 = q' → cnt t (t.xy p) iw = 1 := by
    rintro rfl
    exact (hx1.2 (by rw [hoq']; exact .refl)).resolve_left n3
  have k2 : p1 = q → cnt t (t.xy p) iw ≠ 1 := by
    rintro rfl hh
    have ha := hx1.1 (Or.inr hh)
    rw [hoq] at ha
    have hch := hN'.chain iw hiwl
    rcases h.kind with ⟨k1, k2, k3, k4⟩ | ⟨k1, k2, k3, k4⟩
    · obtain ⟨r, hr, _⟩ := hN.up ow h.cut.owl h.cut.ow0
      rw [k1, ← k2, anc_some (k3.trans hr)] at ha
      rcases ha with ha | ha
      · exact n1 ha.symm
      · exact hch.not_anc hN'.p0 (k4.trans hr) ha
    · exact hch.not_anc hN'.p0 k4 (.head k3 ha)
  have main : p1 = r := by
    rcases hpp p hp' r hr with ⟨rfl, r2, r3⟩ | ⟨r1, r2⟩
    · have hu := Exact.unique hN live h.q1 hold (by rw [hxy]; exact hs.reg p hp' q r2)
      by_cases k : p1 = r
      · exact k
      · rw [if_neg k] at hu
        exact absurd r3 (k2 hu)
    · have hrl := (hs.drawn.nested.free.full trivial p hp' r r1).1
      have hu := Exact.unique hN live hrl hold (by rw [hxy]; exact hs.reg p hp' r r1)
      by_cases k : p1 = q'
      · rw [if_pos k] at hu
        exact absurd (k1 k) (r2 hu.symm)
      · rwa [if_neg k] at hu
  exact main ▸ he

/-- Free points that stay free keep their polygon. -/
theorem reg_le {s s' : St K} (h : Tiled g s) (hl : PpLe s s') (hpid : s'.pid = s.pid) (hxy : s'.xy = s.xy)
    (hE : ∀ x q, q ∈ s.qid.live → Exact s x q → Exact s' x q) : Reg s' := by
  intro p hp q hq
  have hp' : p ∈ s.pid.live := hpid ▸ hp
  rw [hxy]
  have := hl p q hq
  exact hE _ q (h.drawn.nested.free.full trivial p hp' q this).1 (h.reg p hp' q this)

/-- `new_segment` in a drawing: if the new drawing is planar then its polygons are right. -/
theorem newSegment_tiled (hg : ArgOk g) {a b e : Id} {s s' : St K} (hs : newSegment g a b s = .ok (e, s')) (h : Tiled g s)
    (ha : a ∈ s.pid.live) (hb : b ∈ s.pid.live) (hpl : Planar s') (hfan : Fan g s') (hnear : Near g s') : Tiled g s' := by
  have hN := h.drawn.nested
  have hI := newSegment_inv hs hN.inv ha hb
  have hW := newSegment_wires hs hN.inv hN.wires ha hb
  have hF : Flat g s' := ⟨hI.links, hW, hpl, hfan⟩
  have h0 := h.quiet
  have hN0 := hN.quiet
  have key : UpTree s' ∧ Free True s' ∧ NestSt s' → Drawn g s' := fun c => ⟨⟨hI, hW, c.1, c.2.1, c.2.2⟩, hpl, hfan⟩
  obtain ⟨hab, hs⟩ := newSegment_cases hs hN.inv.links ha hb
  cases hs with
  | old _ hs =>
    dsimp only at hs
    subst hs
    exact h0
  | wire t1 t2 pa pb q qa qb hs =>
    have hq := (hN.free.full trivial a ha q qa).1
    have hD := key (newWire_nested hs hN0 ha hb pa pb hq)
    obtain ⟨k1, k2⟩ := newWire_good hg hs h0.drawn h0.good hD ha hb pa pb hq (h0.reg b hb q qb)
    have hA := (newWire_eff hs hN0.inv.links ha hb hN0.free pa pb).1
    exact ⟨hD, k1, reg_le h0 (newWire_le hs) hA.pid hA.xy fun x q hq => (k2 x q hq).2⟩
  | dendrite t1 t2 i root hC pa pb hs =>
    have hD := key (addDendrite_nested hs hN0 ha hb hC pa)
    obtain ⟨k1, k2⟩ := addDendrite_good hg hs h0.drawn h0.good hD ha hb hC pa
    have hA := (addDendrite_eff hs hN0.inv.links ha hb hN0.free hC pa).1
    exact ⟨hD, k1, reg_le h0 (addDendrite_le hs) hA.pid hA.xy fun x q _ => (k2 x q).2⟩
  | join t1 t2 ia ib hCa hCb pa pb _ hs =>
    have hD := key (joinWires_nested hs hN0 hW ha hb hCa hCb)
    obtain ⟨k1, k2⟩ := joinWires_good hg hs h0.drawn h0.good hD ha hb hCa hCb
    have hA := (joinWires_parts hs hN0 hW ha hb hCa hCb).1
    exact ⟨hD, k1, reg_le h0 (joinWires_le hs) hA.pid hA.xy k2⟩
  | split t1 t2 ia ib hCa hCb pa pb _ hs =>
    obtain ⟨ow, lw, q, q', iw, uw, hDv, hxy, hpid, hpp⟩ := splitPoly_divide hg hs h0.drawn h0.good ha hb hCa hCb hF hnear
    have hD := key (splitPoly_nested hs hN0 ha hb hCa hCb (hDv.noSwap hN0.nest))
    exact ⟨hD, hDv.good hg h0.drawn h0.good hD, hDv.reg hg h0 hD hxy hpid hpp⟩

end
end Verif.Decomp
