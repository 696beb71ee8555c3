import Mathlib.GroupTheory.Perm.Cycle.Basic
import Mathlib.SetTheory.Cardinal.Finite
import Mathlib.Data.Setoid.Basic

/-! Cycles of a permutation that is multiplied by transpositions, and the inequality of Euler. -/
namespace Verif.Decomp

open Equiv Equiv.Perm

section
variable {α : Type}

/-- The classes of `a` and `b` put together. -/
def glue (r : Setoid α) (a b : α) : Setoid α where
  r x y := r x y ∨ (r x a ∧ r b y) ∨ (r x b ∧ r a y)
  iseqv := by
    refine ⟨fun x => Or.inl (r.refl x), ?_, ?_⟩
    · rintro x y (h | ⟨h1, h2⟩ | ⟨h1, h2⟩)
      · exact Or.inl (r.symm h)
      · exact Or.inr (Or.inr ⟨r.symm h2, r.symm h1⟩)
      · exact Or.inr (Or.inl ⟨r.symm h2, r.symm h1⟩)
    · rintro x y z (h | ⟨h1, h2⟩ | ⟨h1, h2⟩) (k | ⟨k1, k2⟩ | ⟨k1, k2⟩)
      · exact Or.inl (r.trans h k)
      · exact Or.inr (Or.inl ⟨r.trans h k1, k2⟩)
      · exact Or.inr (Or.inr ⟨r.trans h k1, k2⟩)
      · exact Or.inr (Or.inl ⟨h1, r.trans h2 k⟩)
      · exact Or.inr (Or.inl ⟨h1, k2⟩)
      · exact Or.inl (r.trans h1 k2)
      · exact Or.inr (Or.inr ⟨h1, r.trans h2 k⟩)
      · exact Or.inl (r.trans h1 k2)
      · exact Or.inr (Or.inr ⟨h1, k2⟩)

theorem glue_ab (r : Setoid α) (a b : α) : glue r a b a b := Or.inr (Or.inl ⟨r.refl a, r.refl b⟩)

theorem le_glue (r : Setoid α) (a b : α) {x y : α} (h : r x y) : glue r a b x y := Or.inl h

theorem glue_le {r t : Setoid α} {a b : α} (h : ∀ x y, r x y → t x y) (hab : t a b) {x y : α} (hxy : glue r a b x y) : t x y := by
  rcases hxy with h1 | ⟨h1, h2⟩ | ⟨h1, h2⟩
  · exact h _ _ h1
  · exact t.trans (h _ _ h1) (t.trans hab (h _ _ h2))
  · exact t.trans (h _ _ h1) (t.trans (t.symm hab) (h _ _ h2))

/-- Number of classes. -/
noncomputable def classes (r : Setoid α) : Nat := Nat.card (Quotient r)

theorem classes_congr {r t : Setoid α} (h : ∀ x y, r x y ↔ t x y) : classes r = classes t := by
  rw [show r = t from Setoid.ext h]

theorem classes_glue_same {r : Setoid α} {a b : α} (h : r a b) : classes (glue r a b) = classes r :=
  classes_congr fun _ _ => ⟨glue_le (fun _ _ => id) h, le_glue r a b⟩

theorem classes_glue [Finite α] {r : Setoid α} {a b : α} (h : ¬ r a b) : classes (glue r a b) + 1 = classes r := by
  classical
  have : Nonempty (Option (Quotient (glue r a b)) ≃ Quotient r) := by
    let f : {c : Quotient r // c ≠ Quotient.mk r b} → Quotient (glue r a b) := fun c =>
      Quotient.map (sa := r) (sb := glue r a b) id (fun _ _ h => le_glue r a b h) c.1
    have hf : Function.Bijective f := by
      constructor
      · rintro ⟨c, hc⟩ ⟨d, hd⟩ hcd
        induction c using Quotient.inductionOn with | _ x => ?_
        induction d using Quotient.inductionOn with | _ y => ?_
        have hxy : glue r a b x y := Quotient.exact hcd
        refine Subtype.ext (Quotient.sound ?_)
        rcases hxy with h1 | ⟨h1, h2⟩ | ⟨h1, h2⟩
        · exact h1
        · exact absurd (Quotient.sound (r.symm h2)) hd
        · exact absurd (Quotient.sound h1) hc
      · intro c
        induction c using Quotient.inductionOn with | _ x => ?_
        by_cases hx : r x b
        · exact ⟨⟨Quotient.mk r a, fun hh => h (Quotient.exact hh)⟩, Quotient.sound (Or.inr (Or.inl ⟨r.refl a, r.symm hx⟩))⟩
        · exact ⟨⟨Quotient.mk r x, fun hh => hx (Quotient.exact hh)⟩, rfl⟩
    exact ⟨(Equiv.optionCongr (Equiv.ofBijective f hf).symm).trans (Equiv.optionSubtypeNe (Quotient.mk r b))⟩
  obtain ⟨e⟩ := this
  unfold classes
  rw [← Nat.card_congr e, Finite.card_option]

variable [DecidableEq α]

/-- Number of cycles, fixed points are cycles. -/
noncomputable def cycles (f : Perm α) : Nat := classes (SameCycle.setoid f)

omit [DecidableEq α] in
theorem sameCycle_le {f : Perm α} {t : Setoid α} (h : ∀ x, t x (f x)) {x y : α} (hxy : f.SameCycle x y) : t x y := by
  obtain ⟨i, rfl⟩ := hxy
  induction i using Int.induction_on with
  | zero => exact t.refl x
  | succ i ih =>
    refine t.trans ih ?_
    have := h ((f ^ (i : ℤ)) x)
    rwa [← Perm.mul_apply, ← zpow_one_add, add_comm] at this
  | pred i ih =>
    refine t.trans ih (t.symm ?_)
    have := h ((f ^ (-(i : ℤ) - 1)) x)
    rwa [← Perm.mul_apply, ← zpow_one_add, show 1 + (-(i : ℤ) - 1) = -(i : ℤ) by ring] at this

theorem swap_le {f : Perm α} (a b : α) {x y : α} (h : (swap a b * f).SameCycle x y) : glue (SameCycle.setoid f) a b x y := by
  refine sameCycle_le (t := glue (SameCycle.setoid f) a b) (fun z => ?_) h
  have h1 : glue (SameCycle.setoid f) a b z (f z) := le_glue _ a b (SameCycle.refl f z).apply_right
  refine Setoid.trans' _ h1 ?_
  rw [Perm.mul_apply, swap_apply_def]
  split_ifs with h2 h3
  · rw [h2]; exact glue_ab _ a b
  · rw [h3]; exact Setoid.symm' _ (glue_ab _ a b)
  · exact Setoid.refl' _ _

theorem swap_glue (f : Perm α) (a b : α) :
    classes (glue (SameCycle.setoid (swap a b * f)) a b) = classes (glue (SameCycle.setoid f) a b) := by
  refine classes_congr fun x y => ⟨glue_le (fun _ _ => swap_le a b) (glue_ab _ a b), ?_⟩
  refine glue_le (fun x y h => ?_) (glue_ab _ a b)
  have : f = swap a b * (swap a b * f) := by rw [← mul_assoc, swap_mul_self, one_mul]
  rw [this] at h
  exact swap_le a b h

/-- While the walk from `a` meets neither `a` nor `b`, the transposition does not change it. -/
theorem swap_pow {f : Perm α} {a b : α} {k : Nat} (h : ∀ i, 0 < i → i < k → (f ^ i) a ≠ a ∧ (f ^ i) a ≠ b) :
    ∀ i < k, ((swap a b * f) ^ i) a = (f ^ i) a := by
  intro i
  induction i with
  | zero => intro _; rfl
  | succ i ih =>
    intro hi
    obtain ⟨h1, h2⟩ := h (i + 1) (by omega) hi
    rw [pow_succ', Perm.mul_apply, ih (by omega), Perm.mul_apply, ← Perm.mul_apply f, ← pow_succ', swap_apply_of_ne_of_ne h1 h2]

theorem swap_pow_last {f : Perm α} {a b : α} {k : Nat} (hk : 0 < k)
    (h : ∀ i, 0 < i → i < k → (f ^ i) a ≠ a ∧ (f ^ i) a ≠ b) : ((swap a b * f) ^ k) a = swap a b ((f ^ k) a) := by
  obtain ⟨i, rfl⟩ : ∃ i, k = i + 1 := ⟨k - 1, by omega⟩
  rw [pow_succ', Perm.mul_apply, swap_pow h i (by omega), Perm.mul_apply, ← Perm.mul_apply f, ← pow_succ']

variable [Finite α]

/-- A transposition of members of two cycles joins them. -/
theorem swap_joins {f : Perm α} {a b : α} (h : ¬ f.SameCycle a b) : (swap a b * f).SameCycle a b := by
  have hex : ∃ k, 0 < k ∧ (f ^ k) a = a := ⟨orderOf f, orderOf_pos f, by rw [pow_orderOf_eq_one]; rfl⟩
  obtain ⟨h1, h2⟩ := Nat.find_spec hex
  refine ⟨(Nat.find hex : ℕ), ?_⟩
  rw [zpow_natCast, swap_pow_last h1, h2, swap_apply_left]
  intro i hi hik
  refine ⟨fun hh => Nat.find_min hex hik ⟨hi, hh⟩, fun hh => h ⟨i, by rw [zpow_natCast]; exact hh⟩⟩

/-- A transposition of members of one cycle cuts it. -/
theorem swap_cuts {f : Perm α} {a b : α} (hab : a ≠ b) (h : f.SameCycle a b) : ¬ (swap a b * f).SameCycle a b := by
  have hex : ∃ k, 0 < k ∧ (f ^ k) a = b := by
    obtain ⟨k, h1, _, h2⟩ := h.exists_pow_eq''
    exact ⟨k, h1, h2⟩
  obtain ⟨h1, h2⟩ := Nat.find_spec hex
  have hmin := fun {i} => @Nat.find_min _ _ hex i
  generalize Nat.find hex = j at h1 h2 hmin
  have key : ∀ i, 0 < i → i < j → (f ^ i) a ≠ a ∧ (f ^ i) a ≠ b := by
    intro i hi hij
    refine ⟨fun hh => ?_, fun hh => hmin hij ⟨hi, hh⟩⟩
    refine hmin (i := j - i) (by omega) ⟨by omega, ?_⟩
    have : (f ^ (j - i)) ((f ^ i) a) = b := by
      rw [← Perm.mul_apply, ← pow_add, Nat.sub_add_cancel hij.le, h2]
    rwa [hh] at this
  have hj : ((swap a b * f) ^ j) a = a := by rw [swap_pow_last h1 key, h2, swap_apply_right]
  intro hh
  obtain ⟨n, hn⟩ := hh.exists_nat_pow_eq
  have hm : ∀ m, ((swap a b * f) ^ (j * m)) a = a := by
    intro m
    induction m with
    | zero => rfl
    | succ m ih => rw [Nat.mul_succ, pow_add, Perm.mul_apply, hj, ih]
  rw [← Nat.mod_add_div n j, pow_add, Perm.mul_apply, hm, swap_pow key _ (Nat.mod_lt n h1)] at hn
  by_cases h0 : n % j = 0
  · rw [h0] at hn
    exact hab hn
  · exact (key _ (by omega) (Nat.mod_lt n h1)).2 hn

theorem cycles_joined {f : Perm α} {a b : α} (h : ¬ f.SameCycle a b) : cycles (swap a b * f) + 1 = cycles f := by
  have h1 := classes_glue (r := SameCycle.setoid f) h
  have h2 := classes_glue_same (r := SameCycle.setoid (swap a b * f)) (swap_joins h)
  have h3 := swap_glue f a b
  unfold cycles
  omega

theorem cycles_cut {f : Perm α} {a b : α} (hab : a ≠ b) (h : f.SameCycle a b) : cycles (swap a b * f) = cycles f + 1 := by
  have h1 := classes_glue_same (r := SameCycle.setoid f) h
  have h2 := classes_glue (r := SameCycle.setoid (swap a b * f)) (swap_cuts hab h)
  have h3 := swap_glue f a b
  unfold cycles
  omega

omit [Finite α] in
theorem cycles_self (f : Perm α) (a : α) : cycles (swap a a * f) = cycles f := by
  rw [swap_self]; rfl

/-- The permutation multiplied by transpositions. -/
def swaps (f : Perm α) : List (α × α) → Perm α
  | [] => f
  | p :: l => swap p.1 p.2 * swaps f l

/-- The classes of the cycles, the members of the transpositions put together. -/
def glued (f : Perm α) : List (α × α) → Setoid α
  | [] => SameCycle.setoid f
  | p :: l => glue (glued f l) p.1 p.2

omit [Finite α] in
theorem swaps_le (f : Perm α) (l : List (α × α)) {x y : α} (h : (swaps f l).SameCycle x y) : glued f l x y := by
  induction l generalizing x y with
  | nil => exact h
  | cons p l ih => exact glue_le (fun _ _ hh => le_glue _ _ _ (ih hh)) (glue_ab _ _ _) (swap_le p.1 p.2 h)

/-- The inequality of Euler: for the rotation around points and the transpositions of sides this is
vertices - edges + faces ≤ 2 * components. -/
theorem euler_le (f : Perm α) (l : List (α × α)) :
    cycles (swaps f l) + cycles f ≤ l.length + 2 * classes (glued f l) := by
  induction l with
  | nil =>
    show cycles f + cycles f ≤ 0 + 2 * cycles f
    omega
  | cons p l ih =>
    simp only [swaps, glued, List.length_cons]
    by_cases h : glued f l p.1 p.2
    · rw [classes_glue_same h]
      have : cycles (swap p.1 p.2 * swaps f l) ≤ cycles (swaps f l) + 1 := by
        by_cases hp : p.1 = p.2
        · rw [hp, cycles_self]; omega
        · by_cases hs : (swaps f l).SameCycle p.1 p.2
          · rw [cycles_cut hp hs]
          · have := cycles_joined hs
            omega
      omega
    · have h1 := classes_glue h
      have h2 := cycles_joined fun hs => h (swaps_le f l hs)
      omega

end
end Verif.Decomp
