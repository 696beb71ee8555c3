import Verif.Plane.Good

/-! Divided segments. -/

namespace Verif.Decomp
open Verif.Plane

section
variable {K : Type} [Field K] [LinearOrder K]

/-- The segment of the side `x` in `s` is divided in `t` into the sides `x` and `y`, one after the other. -/
structure Halved (s t : St K) (x y : HE) : Prop where
  was : x.1 ∈ s.sid.live
  fresh : y.1 ∉ s.sid.live
  iff : ∀ j, j ∈ t.sid.live ↔ j ∈ s.sid.live ∨ j = y.1
  o1 : org t x = org s x
  o2 : dst t x = org t y
  o3 : dst t y = dst s x
  on : ∃ τ, 0 < τ ∧ τ < 1 ∧ dst t x = onDart s x τ
  pos : ∀ d : HE, d.1 ∈ s.sid.live → d.1 ≠ x.1 → t.xy (t.vtx d) = s.xy (s.vtx d)
  wo : ∀ d : HE, d.1 ∈ s.sid.live → t.wire d = s.wire d
  w1 : t.wire y = t.wire x
  w2 : t.wire (flip y) = t.wire (flip x)

variable [IsStrictOrderedRing K]

theorem onSeg_dart {s : St K} {d : HE} {x : K × K} :
    OnSeg (org s d) (dst s d) x ↔ OnSeg (s.xy (s.vtx (d.1, false))) (s.xy (s.vtx (d.1, true))) x := by
  obtain ⟨e, v⟩ := d
  cases v
  · exact ⟨OnSeg.swap, OnSeg.swap⟩
  · exact Iff.rfl

theorem hit_dart {s : St K} {d : HE} {x : K × K} (h : ¬ OnSeg (org s d) (dst s d) x) :
    hit s x d.1 = isOnXLine (org s d) (dst s d) x := by
  obtain ⟨e, v⟩ := d
  cases v
  · exact isOnXLine_swap fun hh => h hh.swap
  · rfl

/-- Halves of a segment cover it. -/
theorem onSeg_halves {a b m : K × K} (hm : OnSeg a b m) {r : K × K} (h : OnSeg a b r) : OnSeg a m r ∨ OnSeg m b r := by
  obtain ⟨τ, t0, t1, rfl⟩ := hm
  obtain ⟨u, u0, u1, rfl⟩ := h
  rcases le_or_gt u τ with k | k
  · left
    rcases eq_or_lt_of_le t0 with rfl | ht
    · have : u = 0 := le_antisymm k u0
      subst this
      exact ⟨0, le_rfl, zero_le_one, by simp [parametric]⟩
    · refine ⟨u / τ, div_nonneg u0 t0, (div_le_one ht).2 k, ?_⟩
      simp only [parametric, dir]
      ext <;> dsimp only <;> field_simp <;> ring
  · right
    have ht : 0 < 1 - τ := by linarith
    refine ⟨(u - τ) / (1 - τ), div_nonneg (by linarith) ht.le, (div_le_one ht).2 (by linarith), ?_⟩
    simp only [parametric, dir]
    ext <;> dsimp only <;> field_simp <;> ring

variable {s t : St K} {x y : HE}

omit [IsStrictOrderedRing K] in
theorem Halved.xy (h : Halved s t x y) : x.1 ≠ y.1 := fun hh => h.fresh (hh ▸ h.was)

theorem Halved.mid (h : Halved s t x y) : OnSeg (org s x) (dst s x) (dst t x) := by
  obtain ⟨τ, t0, t1, h1⟩ := h.on
  exact ⟨τ, t0.le, t1.le, h1⟩

theorem Halved.first (h : Halved s t x y) {p : K × K} (hp : OnSeg (org t x) (dst t x) p) : OnSeg (org s x) (dst s x) p := by
  rw [h.o1] at hp
  exact OnSeg.sub (OnSeg.left _ _) h.mid hp

theorem Halved.second (h : Halved s t x y) {p : K × K} (hp : OnSeg (org t y) (dst t y) p) : OnSeg (org s x) (dst s x) p := by
  rw [← h.o2, h.o3] at hp
  exact OnSeg.sub h.mid (OnSeg.right _ _) hp

/-- Nothing changes for `contains_point`. -/
theorem Halved.cnt (h : Halved s t x y) {p : K × K} (hp : Off s p) : cnt t p = cnt s p := by
  have n0 : ¬ OnSeg (org s x) (dst s x) p := fun hh => hp x.1 h.was (onSeg_dart.1 hh)
  have n1 : ¬ OnSeg (org t x) (dst t x) p := fun hh => n0 (h.first hh)
  have n2 : ¬ OnSeg (org t y) (dst t y) p := fun hh => n0 (h.second hh)
  have hx : hit s p x.1 = (hit t p x.1 ^^ hit t p y.1) := by
    rw [hit_dart n0, hit_dart n1, hit_dart n2, h.o1, h.o3, ← h.o2]
    exact (isOnXLine_split h.mid p).1
  have hyf : flip y ≠ y := by
    intro hh
    have := congrArg Prod.snd hh
    simp [flip] at this
  have hxf : flip x ≠ x := by
    intro hh
    have := congrArg Prod.snd hh
    simp [flip] at this
  funext w
  have hD : darts t = insert y (insert (flip y) (darts s)) := by
    ext d
    rw [mem_darts, h.iff, Finset.mem_insert, Finset.mem_insert, mem_darts]
    constructor
    · rintro (k | k)
      · exact Or.inr (Or.inr k)
      · rcases eq_or_flip (h := d) (k := y) k with k | k
        · exact Or.inl k
        · exact Or.inr (Or.inl k)
    · rintro (rfl | rfl | k)
      · exact Or.inr rfl
      · exact Or.inr rfl
      · exact Or.inl k
  have f1 : flip y ∉ darts s := fun hh => h.fresh (mem_darts (d := flip y).1 hh)
  have f2 : y ∉ insert (flip y) (darts s) := by
    rw [Finset.mem_insert, mem_darts]
    rintro (hh | hh)
    · exact hyf hh.symm
    · exact h.fresh hh
  have xs : x ∈ darts s := mem_darts.2 h.was
  have xf : flip x ∈ (darts s).erase x := Finset.mem_erase.2 ⟨hxf, mem_darts.2 h.was⟩
  have z : ∀ (P : Prop) [Decidable P] (a b c : Bool), a = (b ^^ c) →
      (if P ∧ b = true then (1 : ZMod 2) else 0) + (if P ∧ c = true then 1 else 0) = if P ∧ a = true then 1 else 0 := by
    intro P _ a b c hh
    subst hh
    by_cases hP : P <;> cases b <;> cases c <;> simp [hP]
    decide
  unfold Decomp.cnt
  rw [hD, Finset.sum_insert f2, Finset.sum_insert f1, ← Finset.add_sum_erase _ _ xs, ← Finset.add_sum_erase _ _ xf,
    ← Finset.add_sum_erase (darts s) _ xs, ← Finset.add_sum_erase ((darts s).erase x) _ xf, h.w1, h.w2, h.wo x h.was,
    h.wo (flip x) h.was]
  have rest : ∑ d ∈ ((darts s).erase x).erase (flip x), (if t.wire d = some w ∧ hit t p d.1 = true then (1 : ZMod 2) else 0) =
      ∑ d ∈ ((darts s).erase x).erase (flip x), (if s.wire d = some w ∧ hit s p d.1 = true then (1 : ZMod 2) else 0) := by
    refine Finset.sum_congr rfl fun d hd => ?_
    obtain ⟨k1, hd⟩ := Finset.mem_erase.1 hd
    obtain ⟨k2, hd⟩ := Finset.mem_erase.1 hd
    have hdl := mem_darts.1 hd
    have hne : d.1 ≠ x.1 := fun hh => (eq_or_flip (h := d) (k := x) hh).elim k2 k1
    rw [h.wo d hdl]
    unfold hit
    rw [h.pos (d.1, false) hdl hne, h.pos (d.1, true) hdl hne]
  rw [rest, ← z (s.wire x = some w) _ _ _ hx, ← z (s.wire (flip x) = some w) (hit s p (flip x).1) (hit t p (flip x).1) (hit t p (flip y).1) hx]
  ring

/-- What is seen past the halves is seen past the segment. -/
theorem Halved.sees (h : Halved s t x y) {d : HE} (hd : d.1 ∈ s.sid.live) {p : K × K} (hp : Sees t d p) : Sees s d p := by
  have apart : ∀ {j : Id} {a b : K × K}, j ∈ s.sid.live → j ≠ x.1 → SegApart t j a b → SegApart s j a b := by
    intro j a b hj hne hh
    have := hh
    unfold SegApart at this ⊢
    rw [h.pos (j, false) hj hne, h.pos (j, true) hj hne] at this
    exact this
  obtain ⟨τ, t0, t1, hs⟩ := hp.sight
  by_cases hdx : d.1 = x.1
  · obtain ⟨σ, s0, s1, hσ⟩ := h.on
    have e1 : org t x = org s x := h.o1
    have e2 : dst t x = onDart s x σ := hσ
    have on1 : ∀ u, onDart t x u = onDart s x (u * σ) := by
      intro u
      unfold onDart
      rw [e1, e2]
      simp only [onDart, parametric, dir]
      ext <;> dsimp only <;> ring
    have sd : ∀ p, side (org t x) (dst t x) p = σ * side (org s x) (dst s x) p := by
      intro p
      rw [e1, e2]
      simp only [onDart, side, parametric, dir]
      ring
    rcases eq_or_flip (h := d) (k := x) hdx with rfl | rfl
    · refine ⟨hd, ?_, τ * σ, mul_pos t0 s0, ?_, fun j hj hne => ?_⟩
      · have := hp.left
        rw [sd] at this
        exact (mul_pos_iff_of_pos_left s0).1 this
      · calc τ * σ < τ * 1 := mul_lt_mul_of_pos_left s1 t0
          _ < 1 := by rw [mul_one]; exact t1
      · rw [← on1]
        exact apart hj hne (hs j ((h.iff j).2 (Or.inl hj)) hne)
    · have b1 : 0 < (1 - τ) * σ := mul_pos (by linarith) s0
      have b2 : (1 - τ) * σ < 1 := by
        calc (1 - τ) * σ < (1 - τ) * 1 := mul_lt_mul_of_pos_left s1 (by linarith)
          _ < 1 := by linarith
      refine ⟨hd, ?_, 1 - (1 - τ) * σ, by linarith, by linarith, fun j hj hne => ?_⟩
      · have := hp.left
        rw [side_flip, sd] at this
        rw [side_flip]
        have h3 : 0 < σ * (- side (org s x) (dst s x) p) := by linarith
        exact (mul_pos_iff_of_pos_left s0).1 h3
      · rw [onDart_flip, show 1 - (1 - (1 - τ) * σ) = (1 - τ) * σ by ring, ← on1, ← onDart_flip]
        exact apart hj hne (hs j ((h.iff j).2 (Or.inl hj)) hne)
  · have e1 : org t d = org s d := h.pos (flip d) hd hdx
    have e2 : dst t d = dst s d := h.pos d hd hdx
    have e3 : ∀ τ, onDart t d τ = onDart s d τ := fun τ => by unfold onDart; rw [e1, e2]
    refine ⟨hd, by rw [← e1, ← e2]; exact hp.left, τ, t0, t1, fun j hj hne => ?_⟩
    rw [← e3]
    have h1 := hs j ((h.iff j).2 (Or.inl hj)) hne
    by_cases hjx : j = x.1
    · subst hjx
      have h2 := hs y.1 ((h.iff _).2 (Or.inr rfl)) fun hh => h.fresh (hh ▸ hd)
      intro r hr hr'
      rcases onSeg_halves h.mid (onSeg_dart.2 hr) with k | k
      · exact h1 r (onSeg_dart.1 (by rw [h.o1]; exact k)) hr'
      · refine h2 r (onSeg_dart.1 ?_) hr'
        rw [← h.o2, h.o3]
        exact k
    · exact apart hj hjx h1

variable {g : Geom K}

/-- The polygons of a drawing with a divided segment. -/
theorem Halved.good (hg : ArgOk g) (h : Halved s t x y) (ht : Drawn g t) (h1 : t.wid = s.wid) (h2 : t.parent = s.parent)
    (h3 : t.outer = s.outer) (h4 : t.wpoly = s.wpoly) (hG : Good s) : Good t := by
  intro w d p q hp hw hq
  obtain ⟨d0, hd0, hw0⟩ : ∃ d0 : HE, d0.1 ∈ s.sid.live ∧ t.wire d0 = some w := by
    rcases (h.iff _).1 hp.live with hd | hd
    · exact ⟨d, hd, hw⟩
    · rcases eq_or_flip (h := d) (k := y) hd with rfl | rfl
      · exact ⟨x, h.was, by rw [← h.w1]; exact hw⟩
      · exact ⟨flip x, h.was, by rw [← h.w2]; exact hw⟩
  obtain ⟨z, hz⟩ := sees_ex ht.links ht.planar (d := d0) ((h.iff _).2 (Or.inl hd0))
  have hz' := h.sees hd0 hz
  refine goodW_of_one hg ht hz hw0 hq ?_ d p q hp hw hq
  exact (hG w d0 z q hz' (by rw [← h.wo d0 hd0]; exact hw0) (h4 ▸ hq)).frame h1 (h.cnt hz'.off) h2 h3

/-- And with the segments joined again. -/
theorem Halved.good' (hg : ArgOk g) (h : Halved s t x y) (ht : Drawn g t) (hs : Drawn g s) (h1 : t.wid = s.wid) (h2 : t.parent = s.parent)
    (h3 : t.outer = s.outer) (h4 : t.wpoly = s.wpoly) (hG : Good t) : Good s := by
  intro w d p q hp hw hq
  obtain ⟨z, hz⟩ := sees_ex ht.links ht.planar (d := d) ((h.iff _).2 (Or.inl hp.live))
  have hz' := h.sees hp.live hz
  refine goodW_of_one hg hs hz' hw hq ?_ d p q hp hw hq
  exact (hG w d z q hz (by rw [h.wo d hp.live]; exact hw) (h4.symm ▸ hq)).frame h1.symm (h.cnt hz'.off).symm h2.symm h3.symm

end
end Verif.Decomp
