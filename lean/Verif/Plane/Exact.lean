import Verif.Plane.Corner
import Verif.Plane.RayInd
import Verif.Decomp.Nested

/-! Which wires contain a point, and which polygon. -/

namespace Verif.Decomp
open Verif.Plane

/-! ### Parents of parents -/

/-- `b` is `a` or a parent of it, or of its parents. -/
def Anc (par : Id → Option Id) (a b : Id) : Prop := Relation.ReflTransGen (fun x y => par x = some y) a b

section
variable {par par' : Id → Option Id}

theorem anc_none {a w : Id} (h : par a = none) : Anc par a w ↔ w = a := by
  unfold Anc
  rw [Relation.ReflTransGen.cases_head_iff]
  constructor
  · rintro (rfl | ⟨c, hc, _⟩)
    · rfl
    · rw [h] at hc; cases hc
  · rintro rfl
    exact Or.inl rfl

theorem anc_some {a p w : Id} (h : par a = some p) : Anc par a w ↔ w = a ∨ Anc par p w := by
  unfold Anc
  rw [Relation.ReflTransGen.cases_head_iff]
  constructor
  · rintro (rfl | ⟨c, hc, hr⟩)
    · exact Or.inl rfl
    · rw [h] at hc; cases hc
      exact Or.inr hr
  · rintro (rfl | hr)
    · exact Or.inl rfl
    · exact Or.inr ⟨p, h, hr⟩

theorem Up.not_anc {a p : Id} (hU : Up par a) (h0 : par 0 = none) (h : par a = some p) : ¬ Anc par p a := fun hh =>
  hU.acyc h0 (Relation.TransGen.head'_iff.2 ⟨p, h, hh⟩)

theorem Anc.antisymm {a b : Id} (hU : Up par a) (h0 : par 0 = none) (h : Anc par a b) (h' : Anc par b a) : a = b := by
  by_contra hne
  rcases Relation.ReflTransGen.cases_head h with rfl | ⟨c, hc, hr⟩
  · exact hne rfl
  · exact hU.not_anc h0 hc (hr.trans h')

/-- Chains depend only on the parents of the wires. -/
theorem anc_congr {W : Id → Prop} (hc : ∀ w p, W w → par w = some p → W p) (he : ∀ w, W w → par' w = par w) {a w : Id} (ha : W a) :
    Anc par' a w ↔ Anc par a w := by
  constructor
  · intro h
    have : Anc par a w ∧ W w := by
      induction h with
      | refl => exact ⟨.refl, ha⟩
      | tail _ hbc ih =>
        rw [he _ ih.2] at hbc
        exact ⟨ih.1.tail hbc, hc _ _ ih.2 hbc⟩
    exact this.1
  · intro h
    have : Anc par' a w ∧ W w := by
      induction h with
      | refl => exact ⟨.refl, ha⟩
      | tail _ hbc ih => exact ⟨ih.1.tail (by rw [he _ ih.2]; exact hbc), hc _ _ ih.2 hbc⟩
    exact this.1

theorem anc_live {W : Id → Prop} (hc : ∀ w p, W w → par w = some p → W p) {a w : Id} (ha : W a) (h : Anc par a w) : W w := by
  induction h with
  | refl => exact ha
  | tail _ hbc ih => exact hc _ _ ih hbc

/-- A parent further up is reached through one of its childs. -/
theorem Anc.last {a b : Id} (h : Anc par a b) : a = b ∨ ∃ c, Anc par a c ∧ par c = some b := by
  rcases Relation.ReflTransGen.cases_tail h with h | ⟨c, h1, h2⟩
  · exact Or.inl h.symm
  · exact Or.inr ⟨c, h1, h2⟩

/-- Two parents of a wire are above each other. -/
theorem Anc.total {a b c : Id} (h : Anc par a b) (h' : Anc par a c) : Anc par b c ∨ Anc par c b := by
  induction h with
  | refl => exact Or.inl h'
  | @tail x y _ hxy ih =>
    rcases ih with ih | ih
    · rcases Relation.ReflTransGen.cases_head ih with rfl | ⟨z, hz, hr⟩
      · exact Or.inr (.single hxy)
      · rw [hxy] at hz
        cases hz
        exact Or.inl hr
    · exact Or.inr (ih.tail hxy)

end

theorem Nest.closed {W Q : Id → Prop} {par pol : Id → Option Id} {out : Id → Id} {sh : Id → Id → Prop} (h : Nest W Q par pol out sh) :
    ∀ w p, W w → par w = some p → W p := fun _ _ hw hp => h.par_ex hw hp

section
variable {K : Type} [Field K] [LinearOrder K]

/-- The wires that contain `x`, by the count of `contains_point`, are the outer wire of `q` and the parents of it. -/
def Exact (s : St K) (x : K × K) (q : Id) : Prop :=
  ∀ w ∈ s.wid.live, (w = 0 ∨ cnt s x w = 1) ↔ Anc s.parent (s.outer q) w

/-- Points to the left of the sides of the wire `w` are in its polygon. -/
def GoodW (s : St K) (w : Id) : Prop :=
  ∀ d x q, Sees s d x → s.wire d = some w → s.wpoly w = some q → Exact s x q

/-- Points to the left of any side are in the polygon of its wire. -/
def Good (s : St K) : Prop := ∀ w, GoodW s w

theorem Exact.congr {s : St K} {x y : K × K} {q : Id} (h : Exact s x q) (hc : cnt s x = cnt s y) : Exact s y q := by
  intro w hw
  rw [← hc]
  exact h w hw

theorem Exact.unique {s : St K} (h : NestSt s) {x : K × K} {q q' : Id} (hq : q ∈ s.qid.live) (hq' : q' ∈ s.qid.live)
    (h1 : Exact s x q) (h2 : Exact s x q') : q = q' := by
  refine h.out_inj hq hq' (Anc.antisymm (h.chain _ (h.outs q hq).1) h.p0 ?_ ?_)
  · exact (h1 _ (h.outs q' hq').1).1 ((h2 _ (h.outs q' hq').1).2 .refl)
  · exact (h2 _ (h.outs q hq).1).1 ((h1 _ (h.outs q hq).1).2 .refl)

variable [IsStrictOrderedRing K]

/-- What is needed of a state for the geometry of its polygons. -/
structure Drawn (g : Geom K) (s : St K) : Prop where
  nested : Nested s
  planar : Planar s
  fan : Fan g s

/-- The part of `Drawn` without the parents of wires. -/
structure Flat (g : Geom K) (s : St K) : Prop where
  links : Links s ∅ ∅
  wires : Wires s
  planar : Planar s
  fan : Fan g s

variable {g : Geom K} {s : St K}

omit [IsStrictOrderedRing K] in
theorem Drawn.flat (h : Drawn g s) : Flat g s := ⟨h.nested.inv.links, h.nested.wires, h.planar, h.fan⟩

omit [IsStrictOrderedRing K] in
theorem Drawn.links (h : Drawn g s) : Links s ∅ ∅ := h.nested.inv.links

/-- Points that see sides of the same wire are in the same wires. -/
theorem wire_same (hg : ArgOk g) (h : Flat g s) {d d' : HE} (hd : d.1 ∈ s.sid.live) {w : Id} (h1 : s.wire d = some w)
    (h2 : s.wire d' = some w) {x y : K × K} (hx : Sees s d x) (hy : Sees s d' y) : cnt s x = cnt s y := by
  have hL := h.links
  have hW := h.wires
  have key : ∀ l a b, Path s.next a l b → a.1 ∈ s.sid.live → ∀ z ∈ l, ∀ x y, Sees s a x → Sees s z y → cnt s x = cnt s y := by
    intro l
    induction l with
    | nil => intro a b _ _ z hz; simp at hz
    | cons c l ih =>
      rintro a b ⟨rfl, k, hk, hp⟩ ha z hz x y hx hy
      rcases List.mem_cons.1 hz with rfl | hz
      · exact sees_same hL hW h.planar hx hy
      · obtain ⟨k', e1, hkl, _⟩ := hL.next_ok ha (by simp)
        rw [hk] at e1
        cases e1
        obtain ⟨p, hp'⟩ := sees_ex hL h.planar hkl
        exact (corner_same hg hL hW h.planar h.fan ha hk hx hp').trans (ih k b hp hkl z hz p y hp' hy)
  obtain ⟨w', e1, hw, h0⟩ := hW.lab d hd
  rw [h1] at e1
  cases e1
  obtain ⟨l, hc⟩ := hW.cyc w hw h0
  obtain ⟨a, ha⟩ := hc.path
  obtain ⟨l', p1, p2, _⟩ := path_from ha hc.nd ((hc.mem d).2 ⟨hd, h1⟩)
  exact key _ _ _ p1 hd d' (p2.mem_iff.2 ((hc.mem d').2 ⟨hy.live, h2⟩)) x y hx hy

/-- It is enough to look at one point. -/
theorem goodW_of_one (hg : ArgOk g) (h : Drawn g s) {d : HE} {x : K × K} (hx : Sees s d x) {w q : Id} (hw : s.wire d = some w)
    (hq : s.wpoly w = some q) (he : Exact s x q) : GoodW s w := by
  intro d' y q' hy hw' hq'
  rw [hq] at hq'
  cases hq'
  exact he.congr (wire_same hg h.flat hx.live hw hw' hx hy)

/-- From the right of a side to the left. -/
theorem exact_cross (h : Drawn g s) {d : HE} {x y : K × K} (hx : Sees s d x) (hy : Sees s (flip d) y) {w w' q q' : Id}
    (hw : s.wire d = some w) (hw' : s.wire (flip d) = some w') (hq : s.wpoly w = some q) (hq' : s.wpoly w' = some q')
    (he : Exact s y q') : Exact s x q := by
  have hN := h.nested.nest
  have hs : Share s w w' := ⟨d, hx.live, hw, hw'⟩
  obtain ⟨l1, l2, z1, z2⟩ := hN.shw _ _ hs
  have hc := sees_cross h.links h.nested.wires h.planar hx hy
  rw [hw, hw'] at hc
  simp only [Option.some.injEq] at hc
  by_cases hww : w = w'
  · subst hww
    rw [hq] at hq'
    cases hq'
    refine he.congr (funext fun v => ?_)
    rw [hc v, add_assoc]
    have : (if w = v then (1 : ZMod 2) else 0) + (if w = v then 1 else 0) = 0 := by split_ifs <;> decide
    rw [this, add_zero]
  have toggle : (∀ v, v ≠ w → v ≠ w' → (Anc s.parent (s.outer q) v ↔ Anc s.parent (s.outer q') v)) →
      (Anc s.parent (s.outer q) w ↔ ¬ Anc s.parent (s.outer q') w) →
      (Anc s.parent (s.outer q) w' ↔ ¬ Anc s.parent (s.outer q') w') → Exact s x q := by
    intro t1 t2 t3 v hv
    have hev := he v hv
    have one : ∀ a : ZMod 2, a + 1 = 1 ↔ ¬ a = 1 := by decide
    by_cases v1 : v = w
    · subst v1
      rw [t2, ← hev, hc v, if_pos rfl, if_neg (Ne.symm hww), add_zero, one]
      simp [z1]
    · by_cases v2 : v = w'
      · subst v2
        rw [t3, ← hev, hc v, if_pos rfl, if_neg hww, add_zero, one]
        simp [z2]
      · rw [t1 v v1 v2, ← hev, hc v, if_neg (Ne.symm v1), if_neg (Ne.symm v2), add_zero, add_zero]
  obtain ⟨p, hp, _⟩ := hN.up w l1 z1
  obtain ⟨p', hp', _⟩ := hN.up w' l2 z2
  have n1 := (hN.chain w l1).not_anc hN.p0 hp
  have n2 := (hN.chain w' l2).not_anc hN.p0 hp'
  rcases hN.adj _ _ hs with k | ⟨k1, k2, k3⟩ | ⟨k1, k2, k3⟩ | ⟨k1, k2, k3⟩
  · exact absurd k hww
  · rw [hp, hp'] at k3
    cases k3
    have A : ∀ v, Anc s.parent (s.outer q) v ↔ v = w ∨ Anc s.parent p v := fun v => by rw [hN.around hq k1]; exact anc_some hp
    have B : ∀ v, Anc s.parent (s.outer q') v ↔ v = w' ∨ Anc s.parent p v := fun v => by rw [hN.around hq' k2]; exact anc_some hp'
    refine toggle (fun v v1 v2 => ?_) ?_ ?_
    · rw [A, B]; simp [v1, v2]
    · rw [A, B]; simp [hww, n1]
    · rw [A, B]; simp [Ne.symm hww, n2]
  · rw [hp] at k3
    cases k3
    have hi := (hN.inner l2 hq' k2).2
    rw [hp'] at hi
    cases hi
    have A : ∀ v, Anc s.parent (s.outer q) v ↔ v = w ∨ v = w' ∨ Anc s.parent (s.outer q') v := fun v => by
      rw [hN.around hq k1, anc_some hp, anc_some hp']
    have n3 : ¬ Anc s.parent (s.outer q') w := fun hh => n1 ((anc_some hp').2 (Or.inr hh))
    refine toggle (fun v v1 v2 => ?_) ?_ ?_
    · rw [A]; simp [v1, v2]
    · rw [A]; simp [n3]
    · rw [A]; simp [n2]
  · rw [hp'] at k3
    cases k3
    have hi := (hN.inner l1 hq k2).2
    rw [hp] at hi
    cases hi
    have B : ∀ v, Anc s.parent (s.outer q') v ↔ v = w' ∨ v = w ∨ Anc s.parent (s.outer q) v := fun v => by
      rw [hN.around hq' k1, anc_some hp', anc_some hp]
    have n3 : ¬ Anc s.parent (s.outer q) w' := fun hh => n2 ((anc_some hp).2 (Or.inr hh))
    refine toggle (fun v v1 v2 => ?_) ?_ ?_
    · rw [B]; simp [v1, v2]
    · rw [B]; simp [n1]
    · rw [B]; simp [n3]

/-- Over a segment. -/
theorem goodW_share (hg : ArgOk g) (h : Drawn g s) {w w' : Id} (hs : Share s w w') (hG : GoodW s w') : GoodW s w := by
  obtain ⟨d, hd, h1, h2⟩ := hs
  obtain ⟨x, hx⟩ := sees_ex h.links h.planar hd
  obtain ⟨y, hy⟩ := sees_ex h.links h.planar (d := flip d) hd
  obtain ⟨_, q, e1, _, _, hq, _⟩ := h.nested.side hd
  rw [h1] at e1
  cases e1
  obtain ⟨_, q', e1, _, _, hq', _⟩ := h.nested.side (d := flip d) hd
  rw [h2] at e1
  cases e1
  exact goodW_of_one hg h hx h1 hq (exact_cross h hx hy h1 h2 hq hq' (hG _ _ _ hy h2 hq'))

/-- Over connected segments. -/
theorem goodW_reach (hg : ArgOk g) (h : Drawn g s) {w w' : Id} (hs : Relation.ReflTransGen (Share s) w w') (hG : GoodW s w) : GoodW s w' := by
  induction hs with
  | refl => exact hG
  | tail _ hbc ih => exact goodW_share hg h hbc.symm ih

/-- Every point off the segments is in a polygon. -/
theorem exact_ex (h : Drawn g s) (hG : Good s) {x : K × K} (hx : Off s x) : ∃ q ∈ s.qid.live, Exact s x q := by
  have hN := h.nested.nest
  refine ray_ind h.links h.planar (P := fun x => ∃ q ∈ s.qid.live, Exact s x q) ?_ ?_ ?_ x hx
  · intro x hx
    refine ⟨0, hN.q0, fun w _ => ?_⟩
    rw [cnt_beyond hx, hN.o0, anc_none hN.p0]
    simp
  · rintro x y hc ⟨q, hq, he⟩
    exact ⟨q, hq, he.congr (cnt_path h.links h.nested.wires hc).symm⟩
  · rintro d x y hx _ _
    obtain ⟨w, q, h1, _, _, h2, h3⟩ := h.nested.side hx.live
    exact ⟨q, h3, hG w d x q hx h1 h2⟩

end
end Verif.Decomp
