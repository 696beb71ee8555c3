import Verif.Decomp.WiresRun
import Mathlib.Logic.Relation

/-! Nesting of wires seen without the objects: which changes keep it. -/
namespace Verif.Decomp

/-- The chain of parents of `w` ends in the root wire. -/
inductive Up (par : Id → Option Id) : Id → Prop where
  | root : Up par 0
  | step {w p : Id} (h : par w = some p) (hp : Up par p) : Up par w

theorem Up.ne {par : Id → Option Id} {w : Id} (h : Up par w) (h0 : par 0 = none) : par w ≠ some w := by
  induction h with
  | root => rw [h0]; simp
  | step h _ ih =>
    intro hh
    rw [h] at hh
    cases hh
    exact ih h

theorem Up.ne2 {par : Id → Option Id} {w p : Id} (h : Up par w) (h0 : par 0 = none) (hp : par w = some p) : par p ≠ some w := by
  induction h generalizing p with
  | root => rw [h0] at hp; cases hp
  | step h _ ih =>
    rw [h] at hp
    cases hp
    intro hh
    exact ih hh h

theorem Up.inv {par : Id → Option Id} {w : Id} (h : Up par w) (h0 : w ≠ 0) : ∃ p, par w = some p ∧ Up par p := by
  cases h with
  | root => exact absurd rfl h0
  | step h hp => exact ⟨_, h, hp⟩

/-- The parents of a wire do not lead back to it. -/
theorem Up.acyc {par : Id → Option Id} {w : Id} (h : Up par w) (h0 : par 0 = none) :
    ¬ Relation.TransGen (fun a b => par a = some b) w w := by
  induction h with
  | root =>
    intro hh
    obtain ⟨c, hc, _⟩ := Relation.TransGen.head'_iff.1 hh
    rw [h0] at hc
    cases hc
  | @step w p hp _ ih =>
    intro hh
    obtain ⟨c, hc, hr⟩ := Relation.TransGen.head'_iff.1 hh
    rw [hp] at hc
    cases hc
    exact ih (Relation.TransGen.tail'_iff.2 ⟨w, hr, hp⟩)

/-- Other parents of childs of `x` do not change the chain of parents of `x`. -/
theorem Up.avoid {par par' : Id → Option Id} {x : Id} (h0 : par 0 = none) (hx : Up par x) {H : Id → Prop}
    (hH : ∀ w, H w → par w = some x) (h2 : ∀ w, ¬ H w → par' w = par w) : Up par' x := by
  have key : ∀ y, Up par y → ¬ Relation.TransGen (fun a b => par a = some b) y x → Up par' y := by
    intro y hy
    induction hy with
    | root => exact fun _ => .root
    | @step w p hp _ ih =>
      intro hn
      refine .step (p := p) ?_ (ih fun hh => hn (Relation.TransGen.head hp hh))
      rw [h2 w fun hh => hn (.single (hH w hh)), hp]
  exact key x hx (hx.acyc h0)

theorem reach_map {r t : Id → Id → Prop} {f : Id → Id} (h : ∀ a b, r a b → Relation.ReflTransGen t (f a) (f b)) {x y : Id}
    (hxy : Relation.ReflTransGen r x y) : Relation.ReflTransGen t (f x) (f y) := by
  induction hxy with
  | refl => exact .refl
  | tail _ hbc ih => exact ih.trans (h _ _ hbc)

theorem reach_mono {r t : Id → Id → Prop} (h : ∀ a b, r a b → t a b) {x y : Id} (hxy : Relation.ReflTransGen r x y) :
    Relation.ReflTransGen t x y := reach_map (f := id) (fun a b hab => .single (h a b hab)) hxy

/-- Wires on the two sides of one segment: the same one, parts of the same nest, or a hole and a wire in it. `O` are the wires
around polygons. -/
def Beside (O : Id → Prop) (par : Id → Option Id) (x y : Id) : Prop :=
  x = y ∨ (O x ∧ O y ∧ par x = par y) ∨ (O x ∧ ¬ O y ∧ par x = some y) ∨ (O y ∧ ¬ O x ∧ par y = some x)

/-- The wire is around a polygon. -/
def Around (Q : Id → Prop) (out : Id → Id) (w : Id) : Prop := ∃ q, Q q ∧ out q = w

/-- `W` are the wires, `Q` the polygons, `par`, `pol` and `out` the attributes `parent`, `polygon` and `outer_wire`; `sh x y` tells
that the wires are on the sides of one segment. -/
structure Nest (W Q : Id → Prop) (par pol : Id → Option Id) (out : Id → Id) (sh : Id → Id → Prop) : Prop where
  w0 : W 0
  q0 : Q 0
  o0 : out 0 = 0
  p0 : par 0 = none
  up : ∀ w, W w → w ≠ 0 → ∃ p, par w = some p ∧ W p
  chain : ∀ w, W w → Up par w
  outs : ∀ q, Q q → W (out q) ∧ pol (out q) = some q
  pols : ∀ w, W w → ∃ q, Q q ∧ pol w = some q ∧ (out q = w ∨ par w = some (out q))
  hole : ∀ q, Q q → q ≠ 0 → ∀ h, par (out q) = some h → ¬ Around Q out h
  shw : ∀ x y, sh x y → W x ∧ W y ∧ x ≠ 0 ∧ y ≠ 0
  sym : ∀ x y, sh x y → sh y x
  adj : ∀ x y, sh x y → Beside (Around Q out) par x y
  comp : ∀ q, Q q → q ≠ 0 → ∀ h, par (out q) = some h → Relation.ReflTransGen sh (out q) h

namespace Nest
variable {W Q : Id → Prop} {par pol : Id → Option Id} {out : Id → Id} {sh : Id → Id → Prop}

theorem around (h : Nest W Q par pol out sh) {w q : Id} (hw : pol w = some q) (ha : Around Q out w) : out q = w := by
  obtain ⟨q', hq, rfl⟩ := ha
  rw [(h.outs q' hq).2] at hw
  cases hw
  rfl

theorem out_ne (h : Nest W Q par pol out sh) {q : Id} (hq : Q q) (h0 : q ≠ 0) : out q ≠ 0 := by
  intro hh
  have h1 := (h.outs q hq).2
  have h2 := (h.outs 0 h.q0).2
  rw [hh] at h1
  rw [h.o0, h1] at h2
  exact h0 (Option.some.inj h2)

theorem out_inj (h : Nest W Q par pol out sh) {q q' : Id} (hq : Q q) (hq' : Q q') (he : out q = out q') : q = q' := by
  have h1 := (h.outs q hq).2
  rw [he, (h.outs q' hq').2] at h1
  exact (Option.some.inj h1).symm

/-- A wire that is not around a polygon has the outer wire of its polygon as parent. -/
theorem inner (h : Nest W Q par pol out sh) {w q : Id} (hw : W w) (hq : pol w = some q) (hn : ¬ Around Q out w) :
    Q q ∧ par w = some (out q) := by
  obtain ⟨q', h1, h2, h3⟩ := h.pols w hw
  rw [hq] at h2
  cases h2
  exact ⟨h1, h3.resolve_left fun hh => hn ⟨q, h1, hh⟩⟩

/-- A wire whose parent is around a polygon is a hole of this polygon. -/
theorem child (h : Nest W Q par pol out sh) {w q : Id} (hw : W w) (hq : Q q) (hp : par w = some (out q)) :
    pol w = some q ∧ ¬ Around Q out w := by
  obtain ⟨q', h1, h2, h3⟩ := h.pols w hw
  have hn : ¬ Around Q out w := by
    rintro ⟨q2, h4, rfl⟩
    by_cases h5 : q2 = 0
    · rw [h5, h.o0, h.p0] at hp
      cases hp
    · exact h.hole q2 h4 h5 _ hp ⟨q, hq, rfl⟩
  have h4 := h3.resolve_left fun hh => hn ⟨q', h1, hh⟩
  rw [hp] at h4
  rw [h.out_inj hq h1 (Option.some.inj h4)]
  exact ⟨h2, hn⟩

theorem self (h : Nest W Q par pol out sh) {w : Id} (hw : W w) : par w ≠ some w := (h.chain w hw).ne h.p0

theorem swap (h : Nest W Q par pol out sh) {w p : Id} (hw : W w) (hp : par w = some p) : par p ≠ some w := (h.chain w hw).ne2 h.p0 hp

theorem nz (h : Nest W Q par pol out sh) {w p : Id} (hp : par w = some p) : w ≠ 0 := by
  rintro rfl
  rw [h.p0] at hp
  cases hp

/-- Other functions with the same values at wires and polygons. -/
theorem congr (h : Nest W Q par pol out sh) {W' Q' : Id → Prop} {par' pol' : Id → Option Id} {out' : Id → Id} {sh' : Id → Id → Prop}
    (h1 : ∀ w, W' w ↔ W w) (h2 : ∀ q, Q' q ↔ Q q) (h3 : ∀ w, W w → par' w = par w) (h4 : ∀ w, W w → pol' w = pol w)
    (h5 : ∀ q, Q q → out' q = out q) (h6 : ∀ x y, sh' x y ↔ sh x y) : Nest W' Q' par' pol' out' sh' := by
  obtain rfl : W' = W := funext fun w => propext (h1 w)
  obtain rfl : Q' = Q := funext fun w => propext (h2 w)
  obtain rfl : sh' = sh := funext fun x => funext fun y => propext (h6 x y)
  have hA : ∀ w, Around Q' out' w ↔ Around Q' out w := fun w =>
    ⟨fun ⟨q, a, b⟩ => ⟨q, a, by rw [← h5 q a]; exact b⟩, fun ⟨q, a, b⟩ => ⟨q, a, by rw [h5 q a]; exact b⟩⟩
  have hU : ∀ w, Up par w → W' w → Up par' w := by
    intro w hw
    induction hw with
    | root => exact fun _ => .root
    | @step w p hp _ ih =>
      intro hw
      obtain ⟨p', e1, e2⟩ := h.up w hw (h.nz hp)
      rw [hp] at e1
      cases e1
      exact .step (by rw [h3 w hw]; exact hp) (ih e2)
  refine ⟨h.w0, h.q0, by rw [h5 0 h.q0]; exact h.o0, by rw [h3 0 h.w0]; exact h.p0, ?_, ?_, ?_, ?_, ?_, h.shw, h.sym, ?_, ?_⟩
  · intro w hw h0
    rw [h3 w hw]
    exact h.up w hw h0
  · exact fun w hw => hU w (h.chain w hw) hw
  · intro q hq
    rw [h5 q hq, h4 _ (h.outs q hq).1]
    exact h.outs q hq
  · intro w hw
    obtain ⟨q, a, b, c⟩ := h.pols w hw
    exact ⟨q, a, by rw [h4 w hw]; exact b, by rw [h5 q a, h3 w hw]; exact c⟩
  · intro q hq h0 x hx
    rw [h5 q hq, h3 _ (h.outs q hq).1] at hx
    rw [hA]
    exact h.hole q hq h0 x hx
  · intro x y hxy
    obtain ⟨a, b, _⟩ := h.shw x y hxy
    unfold Beside
    rw [hA, hA, h3 x a, h3 y b]
    exact h.adj x y hxy
  · intro q hq h0 x hx
    rw [h5 q hq, h3 _ (h.outs q hq).1] at hx
    rw [h5 q hq]
    exact h.comp q hq h0 x hx

/-- A new hole. -/
theorem add (h : Nest W Q par pol out sh) {n q : Id} (hn : ¬ W n) (hq : Q q) {W' : Id → Prop} {par' pol' : Id → Option Id}
    {sh' : Id → Id → Prop} (h1 : ∀ w, W' w ↔ W w ∨ w = n) (h2 : ∀ w, par' w = if w = n then some (out q) else par w)
    (h3 : ∀ w, pol' w = if w = n then some q else pol w) (h4 : ∀ x y, sh' x y ↔ sh x y ∨ (x = n ∧ y = n)) :
    Nest W' Q par' pol' out sh' := by
  have hne : ∀ w, W w → w ≠ n := fun w hw hh => hn (hh ▸ hw)
  have hp : ∀ w, W w → par' w = par w := fun w hw => by rw [h2, if_neg (hne w hw)]
  have hU : ∀ w, Up par w → W w → Up par' w := by
    intro w hw
    induction hw with
    | root => exact fun _ => .root
    | @step w p hpw _ ih =>
      intro hw
      obtain ⟨p', e1, e2⟩ := h.up w hw (h.nz hpw)
      rw [hpw] at e1
      cases e1
      exact .step (by rw [hp w hw]; exact hpw) (ih e2)
  have hnq : ∀ q', Q q' → out q' ≠ n := fun q' h5 => hne _ (h.outs q' h5).1
  refine ⟨(h1 0).2 (Or.inl h.w0), h.q0, h.o0, by rw [hp 0 h.w0]; exact h.p0, ?_, ?_, ?_, ?_, ?_, ?_, ?_, ?_, ?_⟩
  · intro w hw h0
    rcases (h1 w).1 hw with hw | rfl
    · obtain ⟨p, a, b⟩ := h.up w hw h0
      exact ⟨p, by rw [hp w hw]; exact a, (h1 p).2 (Or.inl b)⟩
    · exact ⟨out q, by rw [h2, if_pos rfl], (h1 _).2 (Or.inl (h.outs q hq).1)⟩
  · intro w hw
    rcases (h1 w).1 hw with hw | rfl
    · exact hU w (h.chain w hw) hw
    · exact .step (by rw [h2, if_pos rfl]) (hU _ (h.chain _ (h.outs q hq).1) (h.outs q hq).1)
  · intro q' h5
    obtain ⟨a, b⟩ := h.outs q' h5
    exact ⟨(h1 _).2 (Or.inl a), by rw [h3, if_neg (hnq q' h5)]; exact b⟩
  · intro w hw
    rcases (h1 w).1 hw with hw | rfl
    · obtain ⟨q', a, b, c⟩ := h.pols w hw
      exact ⟨q', a, by rw [h3, if_neg (hne w hw)]; exact b, by rw [hp w hw]; exact c⟩
    · exact ⟨q, hq, by rw [h3, if_pos rfl], Or.inr (by rw [h2, if_pos rfl])⟩
  · intro q' h5 h0 x hx
    rw [hp _ (h.outs q' h5).1] at hx
    exact h.hole q' h5 h0 x hx
  · intro x y hxy
    rcases (h4 x y).1 hxy with hxy | ⟨rfl, rfl⟩
    · obtain ⟨a, b, c⟩ := h.shw x y hxy
      exact ⟨(h1 x).2 (Or.inl a), (h1 y).2 (Or.inl b), c⟩
    · exact ⟨(h1 _).2 (Or.inr rfl), (h1 _).2 (Or.inr rfl), (hne 0 h.w0).symm, (hne 0 h.w0).symm⟩
  · intro x y hxy
    rw [h4] at hxy ⊢
    rcases hxy with hxy | ⟨rfl, rfl⟩
    · exact Or.inl (h.sym x y hxy)
    · exact Or.inr ⟨rfl, rfl⟩
  · intro x y hxy
    rcases (h4 x y).1 hxy with hxy | ⟨rfl, rfl⟩
    · obtain ⟨a, b, _⟩ := h.shw x y hxy
      unfold Beside
      rw [hp x a, hp y b]
      exact h.adj x y hxy
    · exact Or.inl rfl
  · intro q' h5 h0 x hx
    rw [hp _ (h.outs q' h5).1] at hx
    exact reach_mono (fun a b hab => (h4 a b).2 (Or.inl hab)) (h.comp q' h5 h0 x hx)

/-- Pairs of a wire with itself do not matter. -/
theorem loops (h : Nest W Q par pol out sh) {sh' : Id → Id → Prop} (h1 : ∀ x y, sh' x y → sh x y ∨ (x = y ∧ W x ∧ x ≠ 0))
    (h2 : ∀ x y, sh x y → x = y ∨ sh' x y) (h3 : ∀ x y, sh' x y → sh' y x) : Nest W Q par pol out sh' := by
  refine ⟨h.w0, h.q0, h.o0, h.p0, h.up, h.chain, h.outs, h.pols, h.hole, ?_, h3, ?_, ?_⟩
  · intro x y hxy
    rcases h1 x y hxy with hxy | ⟨rfl, a, b⟩
    · exact h.shw x y hxy
    · exact ⟨a, a, b, b⟩
  · intro x y hxy
    rcases h1 x y hxy with hxy | ⟨rfl, a, b⟩
    · exact h.adj x y hxy
    · exact Or.inl rfl
  · intro q hq h0 x hx
    have := reach_map (r := sh) (t := sh') (f := id) (fun a b hab => ?_) (h.comp q hq h0 x hx)
    · exact this
    rcases h2 a b hab with rfl | hab
    · exact .refl
    · exact .single hab

/-- A wire that is alone on the sides of its segments is not around a polygon and has no childs. -/
theorem lone (h : Nest W Q par pol out sh) {n : Id} (hW : W n) (h0n : n ≠ 0) (hn : ∀ y, sh n y → y = n) :
    ¬ Around Q out n ∧ ∀ w, W w → par w ≠ some n := by
  have stay : ∀ {x y}, Relation.ReflTransGen sh x y → (x = n ↔ y = n) := by
    intro x y hxy
    induction hxy with
    | refl => rfl
    | tail _ hbc ih =>
      rw [ih]
      constructor
      · rintro rfl
        exact hn _ hbc
      · rintro rfl
        exact hn _ (h.sym _ _ hbc)
  have hnO : ¬ Around Q out n := by
    rintro ⟨q, hq, rfl⟩
    have hq0 : q ≠ 0 := by rintro rfl; exact h0n h.o0
    obtain ⟨p, hp, _⟩ := h.up _ hW h0n
    have := (stay (h.comp q hq hq0 p hp)).1 rfl
    rw [this] at hp
    exact h.self hW hp
  have hnp : ∀ w, W w → par w ≠ some n := by
    intro w hw hp
    obtain ⟨q, hq, h5, h6⟩ := h.pols w hw
    rcases h6 with rfl | h6
    · have hq0 : q ≠ 0 := by
        rintro rfl
        exact h.nz hp h.o0
      have := (stay (h.comp q hq hq0 n hp)).2 rfl
      rw [this] at hp
      exact h.self hW hp
    · rw [hp] at h6
      exact hnO ⟨q, hq, (Option.some.inj h6).symm⟩
  exact ⟨hnO, hnp⟩

/-- A wire with itself only on the other sides is removed. -/
theorem remove (h : Nest W Q par pol out sh) {n : Id} (hW : W n) (h0n : n ≠ 0) (hn : ∀ y, sh n y → y = n) {W' : Id → Prop}
    {sh' : Id → Id → Prop} (h1 : ∀ w, W' w ↔ W w ∧ w ≠ n) (h4 : ∀ x y, sh' x y ↔ sh x y ∧ x ≠ n) :
    Nest W' Q par pol out sh' := by
  have stay : ∀ {x y}, Relation.ReflTransGen sh x y → (x = n ↔ y = n) := by
    intro x y hxy
    induction hxy with
    | refl => rfl
    | tail _ hbc ih =>
      rw [ih]
      constructor
      · rintro rfl
        exact hn _ hbc
      · rintro rfl
        exact hn _ (h.sym _ _ hbc)
  obtain ⟨hnO, hnp⟩ := h.lone hW h0n hn
  refine ⟨(h1 0).2 ⟨h.w0, h0n.symm⟩, h.q0, h.o0, h.p0, ?_, ?_, ?_, ?_, h.hole, ?_, ?_, ?_, ?_⟩
  · intro w hw h0
    obtain ⟨p, a, b⟩ := h.up w ((h1 w).1 hw).1 h0
    refine ⟨p, a, (h1 p).2 ⟨b, ?_⟩⟩
    rintro rfl
    exact hnp w ((h1 w).1 hw).1 a
  · exact fun w hw => h.chain w ((h1 w).1 hw).1
  · intro q hq
    exact ⟨(h1 _).2 ⟨(h.outs q hq).1, fun hh => hnO ⟨q, hq, hh⟩⟩, (h.outs q hq).2⟩
  · exact fun w hw => h.pols w ((h1 w).1 hw).1
  · intro x y hxy
    obtain ⟨a, b⟩ := (h4 x y).1 hxy
    obtain ⟨c, d, e⟩ := h.shw x y a
    refine ⟨(h1 x).2 ⟨c, b⟩, (h1 y).2 ⟨d, ?_⟩, e⟩
    rintro rfl
    exact b (hn x (h.sym _ _ a))
  · intro x y hxy
    rw [h4] at hxy ⊢
    refine ⟨h.sym _ _ hxy.1, ?_⟩
    rintro rfl
    exact hxy.2 (hn x (h.sym _ _ hxy.1))
  · exact fun x y hxy => h.adj x y ((h4 x y).1 hxy).1
  · intro q hq h0 x hx
    have hne : out q ≠ n := fun hh => hnO ⟨q, hq, hh⟩
    have := h.comp q hq h0 x hx
    clear hx
    induction this with
    | refl => exact .refl
    | tail hab hbc ih => exact ih.tail ((h4 _ _).2 ⟨hbc, fun hh => hne ((stay hab).2 hh)⟩)

/-- Two wires of one polygon are joined. -/
theorem join (h : Nest W Q par pol out sh) {k r q : Id} (hk : W k) (hr : W r) (hkr : k ≠ r) (hk0 : k ≠ 0)
    (hpk : pol k = some q) (hpr : pol r = some q) (hqr : out q ≠ r) {W' : Id → Prop} {par' : Id → Option Id}
    {sh' : Id → Id → Prop} (h1 : ∀ w, W' w ↔ W w ∧ w ≠ r)
    (h2 : ∀ w, W w → par' w = if par w = some r then (if out q = k then par k else some k) else par w)
    (h3 : ∀ x y, sh' x y → (x = k ∧ y = k) ∨ ∃ x0 y0, sh x0 y0 ∧ x = (if x0 = r then k else x0) ∧ y = if y0 = r then k else y0)
    (h4 : ∀ x0 y0, sh x0 y0 → sh' (if x0 = r then k else x0) (if y0 = r then k else y0))
    (h5 : ∀ x y, sh' x y → sh' y x) : Nest W' Q par' pol out sh' := by
  have hrO : ¬ Around Q out r := fun hh => hqr (h.around hpr hh)
  obtain ⟨hq, hrp⟩ := h.inner hr hpr hrO
  have hkp : par k ≠ some r := by
    intro hh
    by_cases hok : out q = k
    · rw [hok] at hrp
      exact h.swap hk hh hrp
    · have := (h.inner hk hpk fun h6 => hok (h.around hpk h6)).2
      rw [hh] at this
      exact hqr (Option.some.inj this).symm
  have hp' : ∀ w, W w → par w ≠ some r → par' w = par w := fun w hw hh => by rw [h2 w hw, if_neg hh]
  have hr0 : r ≠ 0 := h.nz hrp
  have hU : ∀ w, Up par w → W w → (w ≠ r → Up par' w) ∧ (w = r → Up par' k) := by
    intro w hw
    induction hw with
    | root => exact fun _ => ⟨fun _ => .root, fun hh => absurd hh.symm hr0⟩
    | @step w p hpw _ ih =>
      intro hw
      obtain ⟨p', e1, e2⟩ := h.up w hw (h.nz hpw)
      rw [hpw] at e1
      cases e1
      obtain ⟨i1, i2⟩ := ih e2
      constructor
      · intro hwr
        by_cases hpr' : p = r
        · subst hpr'
          have hk' := i2 rfl
          by_cases hok : out q = k
          · obtain ⟨u, u1, u2⟩ := hk'.inv hk0
            rw [hp' k hk hkp] at u1
            exact .step (by rw [h2 w hw, if_pos hpw, if_pos hok]; exact u1) u2
          · exact .step (by rw [h2 w hw, if_pos hpw, if_neg hok]) hk'
        · exact .step (by rw [hp' w hw (by rw [hpw]; simpa using hpr')]; exact hpw) (i1 hpr')
      · rintro rfl
        rw [hpw] at hrp
        cases hrp
        by_cases hok : out q = k
        · rw [hok] at i1
          exact i1 hkr
        · have := (h.inner hk hpk fun h6 => hok (h.around hpk h6)).2
          exact .step (by rw [hp' k hk hkp]; exact this) (i1 hqr)
  have hout : ∀ q', Q q' → q' ≠ 0 → par' (out q') = (if par (out q') = some r then
      (if out q = k then par k else some k) else par (out q')) := fun q' h6 _ => h2 _ (h.outs q' h6).1
  have hpar : ∀ w, W w → par' w = par w ∨ (par w = some r ∧ par' w = if out q = k then par k else some k) := by
    intro w hw
    by_cases hh : par w = some r
    · exact Or.inr ⟨hh, by rw [h2 w hw, if_pos hh]⟩
    · exact Or.inl (hp' w hw hh)
  have hlift : ∀ {x y}, Relation.ReflTransGen sh x y →
      Relation.ReflTransGen sh' (if x = r then k else x) (if y = r then k else y) := by
    intro x y hxy
    exact reach_map (f := fun x => if x = r then k else x) (fun a b hab => .single (h4 a b hab)) hxy
  refine ⟨(h1 0).2 ⟨h.w0, hr0.symm⟩, h.q0, h.o0, by rw [hp' 0 h.w0 (by rw [h.p0]; simp)]; exact h.p0, ?_, ?_, ?_, ?_, ?_, ?_, h5,
    ?_, ?_⟩
  · intro w hw h0
    obtain ⟨hw, hwr⟩ := (h1 w).1 hw
    obtain ⟨p, a, b⟩ := h.up w hw h0
    by_cases hpr' : p = r
    · subst hpr'
      rw [h2 w hw, if_pos a]
      by_cases hok : out q = k
      · rw [if_pos hok]
        obtain ⟨u, u1, u2⟩ := h.up k hk hk0
        exact ⟨u, u1, (h1 u).2 ⟨u2, fun hh => hkp (hh ▸ u1)⟩⟩
      · rw [if_neg hok]
        exact ⟨k, rfl, (h1 k).2 ⟨hk, hkr⟩⟩
    · exact ⟨p, by rw [hp' w hw (by rw [a]; simpa using hpr')]; exact a, (h1 p).2 ⟨b, hpr'⟩⟩
  · intro w hw
    obtain ⟨hw, hwr⟩ := (h1 w).1 hw
    exact (hU w (h.chain w hw) hw).1 hwr
  · intro q' hq'
    exact ⟨(h1 _).2 ⟨(h.outs q' hq').1, fun hh => hrO ⟨q', hq', hh⟩⟩, (h.outs q' hq').2⟩
  · intro w hw
    obtain ⟨hw, hwr⟩ := (h1 w).1 hw
    obtain ⟨q', a, b, c⟩ := h.pols w hw
    refine ⟨q', a, b, c.imp id fun c => ?_⟩
    rw [hp' w hw ?_]
    · exact c
    · rw [c]
      intro hh
      exact hrO ⟨q', a, Option.some.inj hh⟩
  · intro q' hq' h0 x hx
    rcases hpar _ (h.outs q' hq').1 with hh | ⟨_, hh⟩
    · rw [hh] at hx
      exact h.hole q' hq' h0 x hx
    · rw [hh] at hx
      by_cases hok : out q = k
      · rw [if_pos hok] at hx
        refine h.hole q hq ?_ x (by rw [hok]; exact hx)
        rintro rfl
        rw [← hok, h.o0, h.p0] at hx
        cases hx
      · rw [if_neg hok] at hx
        cases hx
        exact fun h6 => hok (h.around hpk h6)
  · intro x y hxy
    rcases h3 x y hxy with ⟨rfl, rfl⟩ | ⟨x0, y0, hxy0, rfl, rfl⟩
    · exact ⟨(h1 _).2 ⟨hk, hkr⟩, (h1 _).2 ⟨hk, hkr⟩, hk0, hk0⟩
    · obtain ⟨a, b, c, d⟩ := h.shw _ _ hxy0
      refine ⟨?_, ?_, ?_, ?_⟩
      · split
        · exact (h1 _).2 ⟨hk, hkr⟩
        · next hh => exact (h1 _).2 ⟨a, hh⟩
      · split
        · exact (h1 _).2 ⟨hk, hkr⟩
        · next hh => exact (h1 _).2 ⟨b, hh⟩
      · split
        · exact hk0
        · exact c
      · split
        · exact hk0
        · exact d
  · have key : ∀ x0 y0, sh x0 y0 → x0 = r → Beside (Around Q out) par' k (if y0 = r then k else y0) := by
      intro x0 y0 hxy hx
      subst hx
      obtain ⟨a, b, c, d⟩ := h.shw _ _ hxy
      by_cases hyr : y0 = x0
      · rw [if_pos hyr]
        exact Or.inl rfl
      rw [if_neg hyr]
      rcases h.adj _ _ hxy with e | ⟨e, _, _⟩ | ⟨e, _, _⟩ | ⟨e1, e2, e3⟩
      · exact absurd e.symm hyr
      · exact absurd e hrO
      · exact absurd e hrO
      · have hpy : par' y0 = if out q = k then par k else some k := by rw [h2 y0 b, if_pos e3]
        by_cases hok : out q = k
        · rw [if_pos hok] at hpy
          exact Or.inr (Or.inl ⟨⟨q, hq, hok⟩, e1, by rw [hpy, hp' k hk hkp]⟩)
        · rw [if_neg hok] at hpy
          exact Or.inr (Or.inr (Or.inr ⟨e1, fun h6 => hok (h.around hpk h6), hpy⟩))
    intro x y hxy
    rcases h3 x y hxy with ⟨rfl, rfl⟩ | ⟨x0, y0, hxy0, rfl, rfl⟩
    · exact Or.inl rfl
    · obtain ⟨a, b, c, d⟩ := h.shw _ _ hxy0
      by_cases hx : x0 = r
      · rw [if_pos hx]
        exact key _ _ hxy0 hx
      by_cases hy : y0 = r
      · rw [if_neg hx, if_pos hy]
        have := key _ _ (h.sym _ _ hxy0) hy
        rw [if_neg hx] at this
        rcases this with e | ⟨e1, e2, e3⟩ | ⟨e1, e2, e3⟩ | ⟨e1, e2, e3⟩
        · exact Or.inl e.symm
        · exact Or.inr (Or.inl ⟨e2, e1, e3.symm⟩)
        · exact Or.inr (Or.inr (Or.inr ⟨e1, e2, e3⟩))
        · exact Or.inr (Or.inr (Or.inl ⟨e1, e2, e3⟩))
      rw [if_neg hx, if_neg hy]
      rcases h.adj _ _ hxy0 with e | ⟨e1, e2, e3⟩ | ⟨e1, e2, e3⟩ | ⟨e1, e2, e3⟩
      · exact Or.inl e
      · exact Or.inr (Or.inl ⟨e1, e2, by rw [h2 _ a, h2 _ b, e3]⟩)
      · exact Or.inr (Or.inr (Or.inl ⟨e1, e2, by rw [hp' _ a (by rw [e3]; simpa using hy)]; exact e3⟩))
      · exact Or.inr (Or.inr (Or.inr ⟨e1, e2, by rw [hp' _ b (by rw [e3]; simpa using hx)]; exact e3⟩))
  · intro q' hq' h0 x hx
    have hne : out q' ≠ r := fun hh => hrO ⟨q', hq', hh⟩
    rcases hpar _ (h.outs q' hq').1 with hh | ⟨hh', hh⟩
    · rw [hh] at hx
      have := hlift (h.comp q' hq' h0 x hx)
      rw [if_neg hne] at this
      by_cases hxr : x = r
      · exfalso
        rw [hxr] at hx
        rw [h2 _ (h.outs q' hq').1, if_pos hx, hx] at hh
        by_cases hok : out q = k
        · rw [if_pos hok] at hh
          exact hkp hh
        · rw [if_neg hok] at hh
          exact hkr (Option.some.inj hh)
      · rwa [if_neg hxr] at this
    · have := hlift (h.comp q' hq' h0 r hh')
      rw [if_neg hne, if_pos rfl] at this
      rw [hh] at hx
      by_cases hok : out q = k
      · rw [if_pos hok] at hx
        refine this.trans ?_
        have hq0 : q ≠ 0 := by
          rintro rfl
          rw [← hok, h.o0, h.p0] at hx
          cases hx
        have := hlift (h.comp q hq hq0 x (by rw [hok]; exact hx))
        rw [hok, if_neg hkr, if_neg (fun hh : x = r => hkp (hh ▸ hx))] at this
        exact this
      · rw [if_neg hok] at hx
        cases hx
        exact this

theorem par_ex (h : Nest W Q par pol out sh) {w p : Id} (hw : W w) (hp : par w = some p) : W p := by
  obtain ⟨p', e1, e2⟩ := h.up w hw (h.nz hp)
  rw [hp] at e1
  cases e1
  exact e2

/-- Paths are followed by the parts of a cut wire. -/
theorem reach_cut {ow lw : Id} {sh' : Id → Id → Prop} (h5 : ∀ x y, sh' x y → sh' y x) (h6 : sh' ow lw)
    (h4 : ∀ x0 y0, sh x0 y0 → ∃ x y, sh' x y ∧ (if x = lw then ow else x) = x0 ∧ (if y = lw then ow else y) = y0) {x y : Id}
    (hxy : Relation.ReflTransGen sh x y) (hx : x ≠ lw) (hy : y ≠ lw) : Relation.ReflTransGen sh' x y := by
  have same : ∀ u v, (if u = lw then ow else u) = (if v = lw then ow else v) → Relation.ReflTransGen sh' u v := by
    intro u v huv
    by_cases hu : u = lw
    · by_cases hv : v = lw
      · rw [hu, hv]
      · rw [if_pos hu, if_neg hv] at huv
        rw [hu, ← huv]
        exact .single (h5 _ _ h6)
    · by_cases hv : v = lw
      · rw [if_neg hu, if_pos hv] at huv
        rw [hv, huv]
        exact .single h6
      · rw [if_neg hu, if_neg hv] at huv
        rw [huv]
  have all : ∀ y', (if y' = lw then ow else y') = y → Relation.ReflTransGen sh' x y' := by
    clear hy
    induction hxy with
    | refl =>
      intro y' hy'
      refine same _ _ ?_
      rw [if_neg hx, hy']
    | tail _ hbc ih =>
      intro y' hy'
      obtain ⟨u, v, e1, e2, e3⟩ := h4 _ _ hbc
      exact ((ih u e2).tail e1).trans (same _ _ (by rw [e3, hy']))
  exact all y (if_neg hy)

/-- The wire around a polygon is cut in two. -/
theorem cutO (h : Nest W Q par pol out sh) {ow lw q q' : Id} (hq : Q q) (hoq : out q = ow) (ho0 : ow ≠ 0) (hlw : ¬ W lw)
    (hq' : ¬ Q q') {W' Q' : Id → Prop} {par' pol' : Id → Option Id} {out' : Id → Id} {sh' : Id → Id → Prop}
    (h1 : ∀ w, W' w ↔ W w ∨ w = lw) (hQ : ∀ x, Q' x ↔ Q x ∨ x = q')
    (h2 : ∀ w, par' w = if w = lw then par ow else par w) (hp : ∀ w, pol' w = if w = lw then some q' else pol w)
    (ho : ∀ x, out' x = if x = q' then lw else out x)
    (h3 : ∀ x y, sh' x y → (x = ow ∧ y = lw) ∨ (x = lw ∧ y = ow) ∨ sh (if x = lw then ow else x) (if y = lw then ow else y))
    (h4 : ∀ x0 y0, sh x0 y0 → ∃ x y, sh' x y ∧ (if x = lw then ow else x) = x0 ∧ (if y = lw then ow else y) = y0)
    (h5 : ∀ x y, sh' x y → sh' y x) (h6 : sh' ow lw) : Nest W' Q' par' pol' out' sh' := by
  have hne : ∀ w, W w → w ≠ lw := fun w hw hh => hlw (hh ▸ hw)
  have hqe : ∀ x, Q x → x ≠ q' := fun w hw hh => hq' (hh ▸ hw)
  have hpar : ∀ w, W w → par' w = par w := fun w hw => by rw [h2, if_neg (hne w hw)]
  have hout : ∀ x, Q x → out' x = out x := fun x hx => by rw [ho, if_neg (hqe x hx)]
  have how : W ow := hoq ▸ (h.outs q hq).1
  have hA : ∀ w, Around Q' out' w ↔ Around Q out w ∨ w = lw := by
    intro w
    constructor
    · rintro ⟨x, hx, rfl⟩
      rcases (hQ x).1 hx with hx | rfl
      · exact Or.inl ⟨x, hx, (hout x hx).symm⟩
      · exact Or.inr (by rw [ho, if_pos rfl])
    · rintro (⟨x, hx, rfl⟩ | rfl)
      · exact ⟨x, (hQ x).2 (Or.inl hx), hout x hx⟩
      · exact ⟨q', (hQ q').2 (Or.inr rfl), by rw [ho, if_pos rfl]⟩
  have hAo : Around Q out ow := ⟨q, hq, hoq⟩
  have hU : ∀ w, Up par w → W w → Up par' w := by
    intro w hw
    induction hw with
    | root => exact fun _ => .root
    | @step w p hpw _ ih => exact fun hw => .step (by rw [hpar w hw]; exact hpw) (ih (h.par_ex hw hpw))
  have hq0 : q ≠ 0 := by
    rintro rfl
    exact ho0 (hoq ▸ h.o0)
  obtain ⟨po, hpo, hpw⟩ := h.up ow how ho0
  have hpl : par' lw = some po := by rw [h2, if_pos rfl]; exact hpo
  have hlw0 : lw ≠ 0 := (hne 0 h.w0).symm
  refine ⟨(h1 0).2 (Or.inl h.w0), (hQ 0).2 (Or.inl h.q0), by rw [hout 0 h.q0]; exact h.o0, by rw [hpar 0 h.w0]; exact h.p0, ?_, ?_,
    ?_, ?_, ?_, ?_, h5, ?_, ?_⟩
  · intro w hw h0
    rcases (h1 w).1 hw with hw | rfl
    · obtain ⟨p, a, b⟩ := h.up w hw h0
      exact ⟨p, by rw [hpar w hw]; exact a, (h1 p).2 (Or.inl b)⟩
    · exact ⟨po, hpl, (h1 _).2 (Or.inl hpw)⟩
  · intro w hw
    rcases (h1 w).1 hw with hw | rfl
    · exact hU w (h.chain w hw) hw
    · exact .step hpl (hU po (h.chain po hpw) hpw)
  · intro x hx
    rcases (hQ x).1 hx with hx | rfl
    · rw [hout x hx, hp, if_neg (hne _ (h.outs x hx).1)]
      exact ⟨(h1 _).2 (Or.inl (h.outs x hx).1), (h.outs x hx).2⟩
    · rw [ho, if_pos rfl, hp, if_pos rfl]
      exact ⟨(h1 _).2 (Or.inr rfl), rfl⟩
  · intro w hw
    rcases (h1 w).1 hw with hw | rfl
    · obtain ⟨x, a, b, c⟩ := h.pols w hw
      exact ⟨x, (hQ x).2 (Or.inl a), by rw [hp, if_neg (hne w hw)]; exact b, by rw [hout x a, hpar w hw]; exact c⟩
    · exact ⟨q', (hQ q').2 (Or.inr rfl), by rw [hp, if_pos rfl], Or.inl (by rw [ho, if_pos rfl])⟩
  · intro x hx h0 y hy
    rw [hA]
    rcases (hQ x).1 hx with hx | rfl
    · rw [hout x hx, hpar _ (h.outs x hx).1] at hy
      rintro (hh | rfl)
      · exact h.hole x hx h0 y hy hh
      · exact hlw (h.par_ex (h.outs x hx).1 hy)
    · rw [ho, if_pos rfl, hpl] at hy
      cases hy
      rintro (hh | rfl)
      · exact h.hole q hq hq0 po (by rw [hoq]; exact hpo) hh
      · exact hlw hpw
  · intro x y hxy
    rcases h3 x y hxy with ⟨rfl, rfl⟩ | ⟨rfl, rfl⟩ | hxy0
    · exact ⟨(h1 _).2 (Or.inl how), (h1 _).2 (Or.inr rfl), ho0, hlw0⟩
    · exact ⟨(h1 _).2 (Or.inr rfl), (h1 _).2 (Or.inl how), hlw0, ho0⟩
    · obtain ⟨a, b, c, d⟩ := h.shw _ _ hxy0
      refine ⟨?_, ?_, ?_, ?_⟩
      · by_cases hx : x = lw
        · exact (h1 _).2 (Or.inr hx)
        · rw [if_neg hx] at a
          exact (h1 _).2 (Or.inl a)
      · by_cases hx : y = lw
        · exact (h1 _).2 (Or.inr hx)
        · rw [if_neg hx] at b
          exact (h1 _).2 (Or.inl b)
      · by_cases hx : x = lw
        · rw [hx]
          exact hlw0
        · rwa [if_neg hx] at c
      · by_cases hx : y = lw
        · rw [hx]
          exact hlw0
        · rwa [if_neg hx] at d
  · have fold : ∀ w, (if w = lw then ow else w) = w ∨ (w = lw ∧ (if w = lw then ow else w) = ow) := by
      intro w
      by_cases hw : w = lw
      · exact Or.inr ⟨hw, if_pos hw⟩
      · exact Or.inl (if_neg hw)
    have hpf : ∀ w, par' w = par (if w = lw then ow else w) := by
      intro w
      rw [h2]
      split <;> rfl
    have hAf : ∀ w, w ≠ lw → (Around Q' out' w ↔ Around Q out (if w = lw then ow else w)) := by
      intro w hw
      rw [hA, if_neg hw]
      exact or_iff_left hw
    have hAl : ∀ w, w = lw → Around Q' out' w ∧ Around Q out (if w = lw then ow else w) := by
      intro w hw
      rw [hA, if_pos hw]
      exact ⟨Or.inr hw, hAo⟩
    have hAA : ∀ w, Around Q' out' w ↔ Around Q out (if w = lw then ow else w) := by
      intro w
      by_cases hw : w = lw
      · exact ⟨fun _ => (hAl w hw).2, fun _ => (hAl w hw).1⟩
      · exact hAf w hw
    intro x y hxy
    have both : ∀ u v, (if u = lw then ow else u) = ow → (if v = lw then ow else v) = ow → Beside (Around Q' out') par' u v := by
      intro u v hu hv
      exact Or.inr (Or.inl ⟨(hAA u).2 (by rw [hu]; exact hAo), (hAA v).2 (by rw [hv]; exact hAo), by rw [hpf, hpf, hu, hv]⟩)
    rcases h3 x y hxy with ⟨rfl, rfl⟩ | ⟨rfl, rfl⟩ | hxy0
    · exact both _ _ (if_neg (hne _ how)) (if_pos rfl)
    · exact both _ _ (if_pos rfl) (if_neg (hne _ how))
    · rcases h.adj _ _ hxy0 with e | ⟨e1, e2, e3⟩ | ⟨e1, e2, e3⟩ | ⟨e1, e2, e3⟩
      · by_cases hx : x = lw
        · rw [if_pos hx] at e
          exact both _ _ (if_pos hx) e.symm
        · by_cases hy : y = lw
          · rw [if_pos hy] at e
            exact both _ _ e (if_pos hy)
          · rw [if_neg hx, if_neg hy] at e
            exact Or.inl e
      · exact Or.inr (Or.inl ⟨(hAA x).2 e1, (hAA y).2 e2, by rw [hpf, hpf, e3]⟩)
      · have hy : y ≠ lw := fun hh => e2 (hAl y hh).2
        rw [if_neg hy] at e3
        exact Or.inr (Or.inr (Or.inl ⟨(hAA x).2 e1, fun hh => e2 ((hAA y).1 hh), by rw [hpf, e3]⟩))
      · have hx : x ≠ lw := fun hh => e2 (hAl x hh).2
        rw [if_neg hx] at e3
        exact Or.inr (Or.inr (Or.inr ⟨(hAA y).2 e1, fun hh => e2 ((hAA x).1 hh), by rw [hpf, e3]⟩))
  · intro x hx h0 y hy
    rcases (hQ x).1 hx with hx | rfl
    · rw [hout x hx, hpar _ (h.outs x hx).1] at hy
      rw [hout x hx]
      exact reach_cut h5 h6 h4 (h.comp x hx h0 y hy) (hne _ (h.outs x hx).1) (hne _ (h.par_ex (h.outs x hx).1 hy))
    · rw [ho, if_pos rfl, hpl] at hy
      cases hy
      rw [ho, if_pos rfl]
      have := h.comp q hq hq0 po (by rw [hoq]; exact hpo)
      rw [hoq] at this
      exact .head (h5 _ _ h6) (reach_cut h5 h6 h4 this (hne _ how) (hne _ hpw))

/-- A hole is cut in two: `iw` is around the new polygon in the hole `uw`. -/
theorem cutH (h : Nest W Q par pol out sh) {ow lw q q' iw uw : Id} (how : W ow) (hoq : pol ow = some q) (hoo : out q ≠ ow)
    (ho0 : ow ≠ 0) (hlw : ¬ W lw) (hq' : ¬ Q q') (hiu : (iw = ow ∧ uw = lw) ∨ (iw = lw ∧ uw = ow)) {W' Q' : Id → Prop}
    {par' pol' : Id → Option Id} {out' : Id → Id} {sh' : Id → Id → Prop}
    (h1 : ∀ w, W' w ↔ W w ∨ w = lw) (hQ : ∀ x, Q' x ↔ Q x ∨ x = q')
    (hpu : par' uw = some (out q)) (hpi : par' iw = some uw) (h2 : ∀ w, W w → w ≠ ow → par' w = if par w = some ow then some uw else par w)
    (hlu : pol' uw = some q) (hli : pol' iw = some q') (hp : ∀ w, W w → w ≠ ow → pol' w = pol w)
    (ho : ∀ x, out' x = if x = q' then iw else out x)
    (h3 : ∀ x y, sh' x y → (x = ow ∧ y = lw) ∨ (x = lw ∧ y = ow) ∨ sh (if x = lw then ow else x) (if y = lw then ow else y))
    (h4 : ∀ x0 y0, sh x0 y0 → ∃ x y, sh' x y ∧ (if x = lw then ow else x) = x0 ∧ (if y = lw then ow else y) = y0)
    (h5 : ∀ x y, sh' x y → sh' y x) (h6 : sh' ow lw) : Nest W' Q' par' pol' out' sh' := by
  have hne : ∀ w, W w → w ≠ lw := fun w hw hh => hlw (hh ▸ hw)
  have hqe : ∀ x, Q x → x ≠ q' := fun w hw hh => hq' (hh ▸ hw)
  have hout : ∀ x, Q x → out' x = out x := fun x hx => by rw [ho, if_neg (hqe x hx)]
  have hoi : out' q' = iw := by rw [ho, if_pos rfl]
  have hnO : ¬ Around Q out ow := fun hh => hoo (h.around hoq hh)
  obtain ⟨hq, hpo⟩ := h.inner how hoq hnO
  have hiuw : ∀ w, w = ow ∨ w = lw → w = iw ∨ w = uw := by
    rintro w hw
    rcases hiu with ⟨a, b⟩ | ⟨a, b⟩ <;> rw [a, b] <;> tauto
  have hiuw' : ∀ w, w = iw ∨ w = uw → w = ow ∨ w = lw := by
    rintro w hw
    rcases hiu with ⟨a, b⟩ | ⟨a, b⟩ <;> rw [a, b] at hw <;> tauto
  have hiune : iw ≠ uw := by
    rcases hiu with ⟨a, b⟩ | ⟨a, b⟩ <;> rw [a, b]
    · exact hne _ how
    · exact (hne _ how).symm
  have hlw0 : lw ≠ 0 := (hne 0 h.w0).symm
  have hfw : ∀ w, w = ow ∨ w = lw → W' w ∧ w ≠ 0 := by
    rintro w (rfl | rfl)
    · exact ⟨(h1 _).2 (Or.inl how), ho0⟩
    · exact ⟨(h1 _).2 (Or.inr rfl), hlw0⟩
  have hA : ∀ w, Around Q' out' w ↔ Around Q out w ∨ w = iw := by
    intro w
    constructor
    · rintro ⟨x, hx, rfl⟩
      rcases (hQ x).1 hx with hx | rfl
      · exact Or.inl ⟨x, hx, (hout x hx).symm⟩
      · exact Or.inr hoi
    · rintro (⟨x, hx, rfl⟩ | rfl)
      · exact ⟨x, (hQ x).2 (Or.inl hx), hout x hx⟩
      · exact ⟨q', (hQ q').2 (Or.inr rfl), hoi⟩
  have hAu : ¬ Around Q' out' uw := by
    rw [hA]
    rintro (hh | hh)
    · rcases hiuw' uw (Or.inr rfl) with e | e
      · exact hnO (e ▸ hh)
      · obtain ⟨x, hx, e2⟩ := hh
        exact hlw (by rw [← e, ← e2]; exact (h.outs x hx).1)
    · exact hiune hh.symm
  have hwo : ∀ x, Q x → out x ≠ ow := fun x hx hh => hnO ⟨x, hx, hh⟩
  have hAne : ∀ w, Around Q out w → W w ∧ w ≠ ow ∧ w ≠ lw := by
    rintro w ⟨x, hx, rfl⟩
    exact ⟨(h.outs x hx).1, hwo x hx, hne _ (h.outs x hx).1⟩
  have hU : ∀ w, Up par w → W w → (w ≠ ow → Up par' w) ∧ (w = ow → Up par' uw) := by
    intro w hw
    induction hw with
    | root => exact fun _ => ⟨fun _ => .root, fun hh => absurd hh.symm ho0⟩
    | @step w p hpw _ ih =>
      intro hw
      obtain ⟨i1, i2⟩ := ih (h.par_ex hw hpw)
      constructor
      · intro hwo
        by_cases hpo : p = ow
        · exact .step (by rw [h2 w hw hwo, if_pos (by rw [hpw, hpo])]) (i2 hpo)
        · exact .step (by rw [h2 w hw hwo, if_neg (by rw [hpw]; simpa using hpo)]; exact hpw) (i1 hpo)
      · rintro rfl
        rw [hpw] at hpo
        cases hpo
        exact .step hpu (i1 hoo)
  have hUu := (hU ow (h.chain ow how) how).2 rfl
  have h00 : (0 : Id) ≠ ow := ho0.symm
  have pos : ∀ w, W' w → w = iw ∨ w = uw ∨ (W w ∧ w ≠ ow) := by
    intro w hw
    by_cases hh : w = ow ∨ w = lw
    · rcases hiuw w hh with e | e
      · exact Or.inl e
      · exact Or.inr (Or.inl e)
    · push Not at hh
      rcases (h1 w).1 hw with e | e
      · exact Or.inr (Or.inr ⟨e, hh.1⟩)
      · exact absurd e hh.2
  have hUW : W' uw := (hfw uw (hiuw' uw (Or.inr rfl))).1
  refine ⟨(h1 0).2 (Or.inl h.w0), (hQ 0).2 (Or.inl h.q0), by rw [hout 0 h.q0]; exact h.o0,
    by rw [h2 0 h.w0 h00, if_neg (by rw [h.p0]; simp)]; exact h.p0, ?_, ?_, ?_, ?_, ?_, ?_, h5, ?_, ?_⟩
  · intro w hw h0
    rcases pos w hw with rfl | rfl | ⟨hw, hwo⟩
    · exact ⟨uw, hpi, hUW⟩
    · exact ⟨_, hpu, (h1 _).2 (Or.inl (h.outs q hq).1)⟩
    · obtain ⟨p, a, b⟩ := h.up w hw h0
      by_cases hpo : p = ow
      · exact ⟨uw, by rw [h2 w hw hwo, if_pos (by rw [a, hpo])], hUW⟩
      · exact ⟨p, by rw [h2 w hw hwo, if_neg (by rw [a]; simpa using hpo)]; exact a, (h1 p).2 (Or.inl b)⟩
  · intro w hw
    rcases pos w hw with rfl | rfl | ⟨hw, hwo⟩
    · exact .step hpi hUu
    · exact hUu
    · exact (hU w (h.chain w hw) hw).1 hwo
  · intro x hx
    rcases (hQ x).1 hx with hx | rfl
    · rw [hout x hx, hp _ (h.outs x hx).1 (hwo x hx)]
      exact ⟨(h1 _).2 (Or.inl (h.outs x hx).1), (h.outs x hx).2⟩
    · rw [hoi]
      exact ⟨(hfw iw (hiuw' iw (Or.inl rfl))).1, hli⟩
  · intro w hw
    rcases pos w hw with rfl | rfl | ⟨hw, hwo⟩
    · exact ⟨q', (hQ q').2 (Or.inr rfl), hli, Or.inl hoi⟩
    · exact ⟨q, (hQ q).2 (Or.inl hq), hlu, Or.inr (by rw [hout q hq]; exact hpu)⟩
    · obtain ⟨x, a, b, c⟩ := h.pols w hw
      refine ⟨x, (hQ x).2 (Or.inl a), by rw [hp w hw hwo]; exact b, ?_⟩
      rw [hout x a]
      refine c.imp id fun c => ?_
      rw [h2 w hw hwo, if_neg]
      · exact c
      · rw [c]
        intro hh
        exact hnO ⟨x, a, Option.some.inj hh⟩
  · intro x hx h0 y hy
    rcases (hQ x).1 hx with hx | rfl
    · rw [hout x hx, h2 _ (h.outs x hx).1 (hwo x hx)] at hy
      by_cases hpo : par (out x) = some ow
      · rw [if_pos hpo] at hy
        cases hy
        exact hAu
      · rw [if_neg hpo] at hy
        rw [hA]
        rintro (hh | hh)
        · exact h.hole x hx h0 y hy hh
        · rcases hiuw' y (Or.inl hh) with e | e
          · exact hpo (e ▸ hy)
          · exact hlw (e ▸ h.par_ex (h.outs x hx).1 hy)
    · rw [hoi, hpi] at hy
      cases hy
      exact hAu
  · intro x y hxy
    rcases h3 x y hxy with ⟨rfl, rfl⟩ | ⟨rfl, rfl⟩ | hxy0
    · exact ⟨(hfw _ (Or.inl rfl)).1, (hfw _ (Or.inr rfl)).1, ho0, hlw0⟩
    · exact ⟨(hfw _ (Or.inr rfl)).1, (hfw _ (Or.inl rfl)).1, hlw0, ho0⟩
    · obtain ⟨a, b, c, d⟩ := h.shw _ _ hxy0
      refine ⟨?_, ?_, ?_, ?_⟩
      · by_cases hx : x = lw
        · exact (h1 _).2 (Or.inr hx)
        · rw [if_neg hx] at a
          exact (h1 _).2 (Or.inl a)
      · by_cases hx : y = lw
        · exact (h1 _).2 (Or.inr hx)
        · rw [if_neg hx] at b
          exact (h1 _).2 (Or.inl b)
      · by_cases hx : x = lw
        · rw [hx]
          exact hlw0
        · rwa [if_neg hx] at c
      · by_cases hx : y = lw
        · rw [hx]
          exact hlw0
        · rwa [if_neg hx] at d
  · have bsym : ∀ u v, Beside (Around Q' out') par' u v → Beside (Around Q' out') par' v u := by
      rintro u v (e | ⟨e1, e2, e3⟩ | e | e)
      · exact Or.inl e.symm
      · exact Or.inr (Or.inl ⟨e2, e1, e3.symm⟩)
      · exact Or.inr (Or.inr (Or.inr e))
      · exact Or.inr (Or.inr (Or.inl e))
    have hAi : Around Q' out' iw := (hA iw).2 (Or.inr rfl)
    have two : ∀ u v, (u = iw ∨ u = uw) → (v = iw ∨ v = uw) → Beside (Around Q' out') par' u v := by
      rintro u v (rfl | rfl) (rfl | rfl)
      · exact Or.inl rfl
      · exact Or.inr (Or.inr (Or.inl ⟨hAi, hAu, hpi⟩))
      · exact Or.inr (Or.inr (Or.inr ⟨hAi, hAu, hpi⟩))
      · exact Or.inl rfl
    have key : ∀ u v, sh ow v → (u = iw ∨ u = uw) → v ≠ ow → Beside (Around Q' out') par' u v := by
      intro u v huv hu hv
      rcases h.adj _ _ huv with e | ⟨e, _, _⟩ | ⟨e, _, _⟩ | ⟨e1, e2, e3⟩
      · exact absurd e.symm hv
      · exact absurd e hnO
      · exact absurd e hnO
      · have hpv : par' v = some uw := by rw [h2 v (h.shw _ _ huv).2.1 hv, if_pos e3]
        have hAv := (hA v).2 (Or.inl e1)
        rcases hu with rfl | rfl
        · exact Or.inr (Or.inl ⟨hAi, hAv, by rw [hpi, hpv]⟩)
        · exact Or.inr (Or.inr (Or.inr ⟨hAv, hAu, hpv⟩))
    intro x y hxy
    rcases h3 x y hxy with ⟨rfl, rfl⟩ | ⟨rfl, rfl⟩ | hxy0
    · exact two _ _ (hiuw _ (Or.inl rfl)) (hiuw _ (Or.inr rfl))
    · exact two _ _ (hiuw _ (Or.inr rfl)) (hiuw _ (Or.inl rfl))
    · have fold : ∀ w, (w = ow ∨ w = lw) ∧ (if w = lw then ow else w) = ow ∨ ((w ≠ ow ∧ w ≠ lw) ∧ (if w = lw then ow else w) = w) := by
        intro w
        by_cases hw : w = lw
        · exact Or.inl ⟨Or.inr hw, if_pos hw⟩
        · by_cases hw2 : w = ow
          · exact Or.inl ⟨Or.inl hw2, by rw [if_neg hw]; exact hw2⟩
          · exact Or.inr ⟨⟨hw2, hw⟩, if_neg hw⟩
      rcases fold x with ⟨fx, ex⟩ | ⟨⟨fx, fx'⟩, ex⟩ <;> rcases fold y with ⟨fy, ey⟩ | ⟨⟨fy, fy'⟩, ey⟩ <;> rw [ex, ey] at hxy0
      · exact two _ _ (hiuw _ fx) (hiuw _ fy)
      · exact key _ _ hxy0 (hiuw _ fx) fy
      · exact bsym _ _ (key _ _ (h.sym _ _ hxy0) (hiuw _ fy) fx)
      · obtain ⟨a, b, _⟩ := h.shw _ _ hxy0
        have hnA : ∀ v, v ≠ ow → v ≠ lw → ¬ Around Q out v → ¬ Around Q' out' v := by
          intro v v1 v2 v3
          rw [hA]
          rintro (e | e)
          · exact v3 e
          · rcases hiuw' v (Or.inl e) with e | e
            · exact v1 e
            · exact v2 e
        rcases h.adj _ _ hxy0 with e | ⟨e1, e2, e3⟩ | ⟨e1, e2, e3⟩ | ⟨e1, e2, e3⟩
        · exact Or.inl e
        · exact Or.inr (Or.inl ⟨(hA _).2 (Or.inl e1), (hA _).2 (Or.inl e2), by rw [h2 x a fx, h2 y b fy, e3]⟩)
        · exact Or.inr (Or.inr (Or.inl ⟨(hA _).2 (Or.inl e1), hnA _ fy fy' e2,
            by rw [h2 x a fx, if_neg (by rw [e3]; simpa using fy)]; exact e3⟩))
        · exact Or.inr (Or.inr (Or.inr ⟨(hA _).2 (Or.inl e1), hnA _ fx fx' e2,
            by rw [h2 y b fy, if_neg (by rw [e3]; simpa using fx)]; exact e3⟩))
  · have hol : ∀ w, (w = iw ∨ w = uw) → Relation.ReflTransGen sh' ow w := by
      intro w hw
      rcases hiuw' w hw with rfl | rfl
      · exact .refl
      · exact .single h6
    have hlo : ∀ w, (w = iw ∨ w = uw) → Relation.ReflTransGen sh' w ow := by
      intro w hw
      rcases hiuw' w hw with rfl | rfl
      · exact .refl
      · exact .single (h5 _ _ h6)
    intro x hx h0 y hy
    rcases (hQ x).1 hx with hx | rfl
    · rw [hout x hx, h2 _ (h.outs x hx).1 (hwo x hx)] at hy
      rw [hout x hx]
      by_cases hpo : par (out x) = some ow
      · rw [if_pos hpo] at hy
        cases hy
        exact (reach_cut h5 h6 h4 (h.comp x hx h0 ow hpo) (hne _ (h.outs x hx).1) (hne _ how)).trans (hol _ (Or.inr rfl))
      · rw [if_neg hpo] at hy
        exact reach_cut h5 h6 h4 (h.comp x hx h0 y hy) (hne _ (h.outs x hx).1) (hne _ (h.par_ex (h.outs x hx).1 hy))
    · rw [hoi, hpi] at hy
      cases hy
      rw [hoi]
      exact (hlo _ (Or.inl rfl)).trans (hol _ (Or.inr rfl))

/-- Holes of `q` are given to `q'`. -/
theorem holes (h : Nest W Q par pol out sh) {q q' : Id} (hq : Q q) (hq' : Q q') {H : Id → Prop} (hH : ∀ w, H w → W w ∧ par w = some (out q))
    {par' pol' : Id → Option Id} (h1 : ∀ w, H w → par' w = some (out q') ∧ pol' w = some q')
    (h2 : ∀ w, ¬ H w → par' w = par w ∧ pol' w = pol w) (hU : Up par' (out q')) : Nest W Q par' pol' out sh := by
  have hHO : ∀ w, H w → ¬ Around Q out w := fun w hw => (h.child (hH w hw).1 hq (hH w hw).2).2
  have hO : ∀ w, Around Q out w → par' w = par w := fun w hw => (h2 w fun hh => hHO w hh hw).1
  have hH0 : ¬ H 0 := fun hh => h.nz (hH 0 hh).2 rfl
  have hoO : ∀ x, Q x → ¬ H (out x) := fun x hx hh => hHO _ hh ⟨x, hx, rfl⟩
  have hUp : ∀ w, Up par w → Up par' w := by
    intro w hw
    induction hw with
    | root => exact .root
    | @step w p hpw _ ih =>
      by_cases hh : H w
      · exact .step (h1 w hh).1 hU
      · exact .step (by rw [(h2 w hh).1]; exact hpw) ih
  refine ⟨h.w0, h.q0, h.o0, by rw [(h2 0 hH0).1]; exact h.p0, ?_, fun w hw => hUp w (h.chain w hw), ?_, ?_, ?_, h.shw, h.sym, ?_, ?_⟩
  · intro w hw h0
    by_cases hh : H w
    · exact ⟨_, (h1 w hh).1, (h.outs q' hq').1⟩
    · rw [(h2 w hh).1]
      exact h.up w hw h0
  · intro x hx
    rw [(h2 _ (hoO x hx)).2]
    exact h.outs x hx
  · intro w hw
    by_cases hh : H w
    · exact ⟨q', hq', (h1 w hh).2, Or.inr (h1 w hh).1⟩
    · rw [(h2 w hh).1, (h2 w hh).2]
      exact h.pols w hw
  · intro x hx h0 y hy
    rw [(h2 _ (hoO x hx)).1] at hy
    exact h.hole x hx h0 y hy
  · intro x y hxy
    rcases h.adj x y hxy with e | ⟨e1, e2, e3⟩ | ⟨e1, e2, e3⟩ | ⟨e1, e2, e3⟩
    · exact Or.inl e
    · exact Or.inr (Or.inl ⟨e1, e2, by rw [hO x e1, hO y e2, e3]⟩)
    · exact Or.inr (Or.inr (Or.inl ⟨e1, e2, by rw [hO x e1, e3]⟩))
    · exact Or.inr (Or.inr (Or.inr ⟨e1, e2, by rw [hO y e1, e3]⟩))
  · intro x hx h0 y hy
    rw [(h2 _ (hoO x hx)).1] at hy
    exact h.comp x hx h0 y hy

/-- Two polygons are joined: the wire `r` around `q'` becomes a part of `k`. -/
theorem merge (h : Nest W Q par pol out sh) {k r q q' : Id} (hk : W k) (hk0 : k ≠ 0) (hkr : k ≠ r) (hq' : Q q') (hr : out q' = r)
    (hr0 : r ≠ 0) (hkq : pol k = some q) (hkind : (Around Q out k ∧ par k = par r) ∨ (¬ Around Q out k ∧ par r = some k))
    {W' Q' : Id → Prop} {par' pol' : Id → Option Id} {sh' : Id → Id → Prop} (h1 : ∀ w, W' w ↔ W w ∧ w ≠ r)
    (hQ : ∀ x, Q' x ↔ Q x ∧ x ≠ q')
    (h2 : ∀ w, W w → w ≠ r → par' w = if par w = some r then some (out q) else par w)
    (hp : ∀ w, W w → w ≠ r → pol' w = if par w = some r then some q else pol w)
    (h3 : ∀ x y, sh' x y → ∃ x0 y0, sh x0 y0 ∧ x = (if x0 = r then k else x0) ∧ y = if y0 = r then k else y0)
    (h4 : ∀ x0 y0, sh x0 y0 → (if x0 = r then k else x0) = (if y0 = r then k else y0) ∨
      sh' (if x0 = r then k else x0) (if y0 = r then k else y0))
    (h5 : ∀ x y, sh' x y → sh' y x) : Nest W' Q' par' pol' out sh' := by
  have hrW : W r := hr ▸ (h.outs q' hq').1
  have hrA : Around Q out r := ⟨q', hq', hr⟩
  have hq0 : q' ≠ 0 := by
    rintro rfl
    exact hr0 (hr ▸ h.o0)
  have hq : Q q := by
    obtain ⟨x, a, b, _⟩ := h.pols k hk
    rw [hkq] at b
    cases b
    exact a
  have hqq : q ≠ q' := by
    rintro rfl
    rcases hkind with ⟨e, _⟩ | ⟨e1, e2⟩
    · exact hkr (by rw [← h.around hkq e]; exact hr)
    · have := (h.inner hk hkq e1).2
      rw [hr] at this
      exact h.swap hk this e2
  have hor : out q ≠ r := fun hh => hqq (h.out_inj hq hq' (by rw [hh, hr]))
  have hAr : ∀ w, Around Q out w → par w ≠ some r := by
    rintro w ⟨x, hx, rfl⟩ hh
    by_cases h0 : x = 0
    · rw [h0, h.o0] at hh
      exact h.nz hh rfl
    · exact h.hole x hx h0 r hh hrA
  have hA : ∀ w, Around Q' out w ↔ Around Q out w ∧ w ≠ r := by
    intro w
    constructor
    · rintro ⟨x, hx, rfl⟩
      obtain ⟨hx, hx'⟩ := (hQ x).1 hx
      exact ⟨⟨x, hx, rfl⟩, fun hh => hx' (h.out_inj hx hq' (by rw [hh, hr]))⟩
    · rintro ⟨⟨x, hx, rfl⟩, hw⟩
      exact ⟨x, (hQ x).2 ⟨hx, fun hh => hw (by rw [hh]; exact hr)⟩, rfl⟩
  have hpA : ∀ w, Around Q out w → w ≠ r → par' w = par w := by
    intro w hw hwr
    have : W w := by
      obtain ⟨x, hx, rfl⟩ := hw
      exact (h.outs x hx).1
    rw [h2 w this hwr, if_neg (hAr w hw)]
  have hkp : par k ≠ some r := by
    rcases hkind with ⟨e, _⟩ | ⟨_, e⟩
    · exact hAr k e
    · exact fun hh => h.swap hk hh e
  have hpk : par' k = par k := by rw [h2 k hk hkr, if_neg hkp]
  have hU : ∀ w, Up par w → W w → (w ≠ r → Up par' w) ∧ (w = r → Up par' (out q)) := by
    intro w hw
    induction hw with
    | root => exact fun _ => ⟨fun _ => .root, fun hh => absurd hh.symm hr0⟩
    | @step w p hpw _ ih =>
      intro hw
      obtain ⟨i1, i2⟩ := ih (h.par_ex hw hpw)
      constructor
      · intro hwr
        by_cases hpr : p = r
        · exact .step (by rw [h2 w hw hwr, if_pos (by rw [hpw, hpr])]) (i2 hpr)
        · exact .step (by rw [h2 w hw hwr, if_neg (by rw [hpw]; simpa using hpr)]; exact hpw) (i1 hpr)
      · rintro rfl
        have hpr : p ≠ w := fun hh => h.self hw (hh ▸ hpw)
        rcases hkind with ⟨e1, e2⟩ | ⟨e1, e2⟩
        · rw [h.around hkq e1]
          exact .step (by rw [hpk, e2]; exact hpw) (i1 hpr)
        · rw [hpw] at e2
          cases e2
          obtain ⟨u, u1, u2⟩ := (i1 hpr).inv hk0
          rw [hpk, (h.inner hk hkq e1).2] at u1
          cases u1
          exact u2
  refine ⟨(h1 0).2 ⟨h.w0, hr0.symm⟩, (hQ 0).2 ⟨h.q0, hq0.symm⟩, h.o0, ?_, ?_, ?_, ?_, ?_, ?_, ?_, h5, ?_, ?_⟩
  · rw [h2 0 h.w0 hr0.symm, if_neg (by rw [h.p0]; simp)]
    exact h.p0
  · intro w hw h0
    obtain ⟨hw, hwr⟩ := (h1 w).1 hw
    obtain ⟨p, a, b⟩ := h.up w hw h0
    by_cases hpr : p = r
    · exact ⟨out q, by rw [h2 w hw hwr, if_pos (by rw [a, hpr])], (h1 _).2 ⟨(h.outs q hq).1, hor⟩⟩
    · exact ⟨p, by rw [h2 w hw hwr, if_neg (by rw [a]; simpa using hpr)]; exact a, (h1 p).2 ⟨b, hpr⟩⟩
  · intro w hw
    obtain ⟨hw, hwr⟩ := (h1 w).1 hw
    exact (hU w (h.chain w hw) hw).1 hwr
  · intro x hx
    obtain ⟨hx, hx'⟩ := (hQ x).1 hx
    have hxr : out x ≠ r := fun hh => hx' (h.out_inj hx hq' (by rw [hh, hr]))
    rw [hp _ (h.outs x hx).1 hxr, if_neg (hAr _ ⟨x, hx, rfl⟩)]
    exact ⟨(h1 _).2 ⟨(h.outs x hx).1, hxr⟩, (h.outs x hx).2⟩
  · intro w hw
    obtain ⟨hw, hwr⟩ := (h1 w).1 hw
    by_cases hpr : par w = some r
    · exact ⟨q, (hQ q).2 ⟨hq, hqq⟩, by rw [hp w hw hwr, if_pos hpr], Or.inr (by rw [h2 w hw hwr, if_pos hpr])⟩
    · obtain ⟨x, a, b, c⟩ := h.pols w hw
      refine ⟨x, (hQ x).2 ⟨a, ?_⟩, by rw [hp w hw hwr, if_neg hpr]; exact b, by rw [h2 w hw hwr, if_neg hpr]; exact c⟩
      rintro rfl
      rw [hr] at c
      rcases c with c | c
      · exact hwr c.symm
      · exact hpr c
  · intro x hx h0 y hy
    obtain ⟨hx, hx'⟩ := (hQ x).1 hx
    have hxr : out x ≠ r := fun hh => hx' (h.out_inj hx hq' (by rw [hh, hr]))
    rw [hpA _ ⟨x, hx, rfl⟩ hxr] at hy
    rw [hA]
    exact fun hh => h.hole x hx h0 y hy hh.1
  · intro x y hxy
    obtain ⟨x0, y0, hxy0, rfl, rfl⟩ := h3 x y hxy
    obtain ⟨a, b, c, d⟩ := h.shw _ _ hxy0
    have side : ∀ v, W v → v ≠ 0 → W' (if v = r then k else v) ∧ (if v = r then k else v) ≠ 0 := by
      intro v hv hv0
      split
      · exact ⟨(h1 _).2 ⟨hk, hkr⟩, hk0⟩
      · next hh => exact ⟨(h1 _).2 ⟨hv, hh⟩, hv0⟩
    exact ⟨(side _ a c).1, (side _ b d).1, (side _ a c).2, (side _ b d).2⟩
  · have bsym : ∀ u v, Beside (Around Q' out) par' u v → Beside (Around Q' out) par' v u := by
      rintro u v (e | ⟨e1, e2, e3⟩ | e | e)
      · exact Or.inl e.symm
      · exact Or.inr (Or.inl ⟨e2, e1, e3.symm⟩)
      · exact Or.inr (Or.inr (Or.inr e))
      · exact Or.inr (Or.inr (Or.inl e))
    have key : ∀ y0, sh r y0 → y0 ≠ r → Beside (Around Q' out) par' k y0 := by
      intro y0 hy hyr
      rcases h.adj _ _ hy with e | ⟨_, e2, e3⟩ | ⟨_, e2, e3⟩ | ⟨_, e2, _⟩
      · exact absurd e.symm hyr
      · have hyA := (hA y0).2 ⟨e2, hyr⟩
        rcases hkind with ⟨k1, k2⟩ | ⟨k1, k2⟩
        · exact Or.inr (Or.inl ⟨(hA k).2 ⟨k1, hkr⟩, hyA, by rw [hpk, hpA y0 e2 hyr, k2, e3]⟩)
        · exact Or.inr (Or.inr (Or.inr ⟨hyA, fun hh => k1 ((hA k).1 hh).1, by rw [hpA y0 e2 hyr, ← e3, k2]⟩))
      · rcases hkind with ⟨k1, k2⟩ | ⟨k1, k2⟩
        · exact Or.inr (Or.inr (Or.inl ⟨(hA k).2 ⟨k1, hkr⟩, fun hh => e2 ((hA y0).1 hh).1, by rw [hpk, k2, e3]⟩))
        · rw [k2] at e3
          exact Or.inl (Option.some.inj e3)
      · exact absurd hrA e2
    intro x y hxy
    obtain ⟨x0, y0, hxy0, rfl, rfl⟩ := h3 x y hxy
    by_cases hx : x0 = r
    · by_cases hy : y0 = r
      · rw [if_pos hx, if_pos hy]
        exact Or.inl rfl
      · rw [if_pos hx, if_neg hy]
        exact key y0 (hx ▸ hxy0) hy
    · by_cases hy : y0 = r
      · rw [if_neg hx, if_pos hy]
        exact bsym _ _ (key x0 (hy ▸ h.sym _ _ hxy0) hx)
      · rw [if_neg hx, if_neg hy]
        rcases h.adj _ _ hxy0 with e | ⟨e1, e2, e3⟩ | ⟨e1, e2, e3⟩ | ⟨e1, e2, e3⟩
        · exact Or.inl e
        · exact Or.inr (Or.inl ⟨(hA _).2 ⟨e1, hx⟩, (hA _).2 ⟨e2, hy⟩, by rw [hpA _ e1 hx, hpA _ e2 hy, e3]⟩)
        · exact Or.inr (Or.inr (Or.inl ⟨(hA _).2 ⟨e1, hx⟩, fun hh => e2 ((hA _).1 hh).1, by rw [hpA _ e1 hx, e3]⟩))
        · exact Or.inr (Or.inr (Or.inr ⟨(hA _).2 ⟨e1, hy⟩, fun hh => e2 ((hA _).1 hh).1, by rw [hpA _ e1 hy, e3]⟩))
  · intro x hx h0 y hy
    obtain ⟨hx, hx'⟩ := (hQ x).1 hx
    have hxr : out x ≠ r := fun hh => hx' (h.out_inj hx hq' (by rw [hh, hr]))
    rw [hpA _ ⟨x, hx, rfl⟩ hxr] at hy
    have := reach_map (r := sh) (t := sh') (f := fun x => if x = r then k else x) (fun a b hab => ?_) (h.comp x hx h0 y hy)
    · rw [if_neg hxr, if_neg (fun hh : y = r => h.hole x hx h0 y hy (hh ▸ hrA))] at this
      exact this
    · rcases h4 a b hab with e | e
      · rw [e]
      · exact .single e

end Nest
end Verif.Decomp
