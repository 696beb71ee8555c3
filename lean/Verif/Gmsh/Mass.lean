import Mathlib.Algebra.BigOperators.Group.List.Basic
import Mathlib.Algebra.Order.Field.Basic
import Mathlib.Algebra.Order.Ring.Rat
import Mathlib.Tactic.Linarith
import Mathlib.Tactic.FieldSimp
import Mathlib.Tactic.Ring

/-!
Model of `have_common_dim`, `mass` and `center_of_mass` of src/bgem/gmsh/gmsh.py. The masses and centres of single entities come from the
library and are arbitrary functions of the dimension and tag.
-/
namespace Verif.Gmsh.Mass

/-- `have_common_dim` (gmsh.py:632-640); the outer `none` is the assertion on an empty list. -/
def haveCommonDim (dts : List (Nat × Nat)) : Option (Option Nat) :=
  match dts with
  | [] => none
  | d :: _ => some (if dts.any fun e => decide (e.1 ≠ d.1) then none else some d.1)

/-- **C177.** The common dimension is returned exactly if all entities have it. -/
theorem common_dim {dts : List (Nat × Nat)} (h : dts ≠ []) (n : Nat) : haveCommonDim dts = some (some n) ↔ ∀ e ∈ dts, e.1 = n := by
  cases dts with
  | nil => exact absurd rfl h
  | cons d l =>
    simp only [haveCommonDim, Option.some.injEq, List.any_eq_true, decide_eq_true_eq]
    constructor
    · intro hh e he
      split at hh
      · cases hh
      · next k =>
        cases hh
        by_contra hne
        exact k ⟨e, he, hne⟩
    · intro hh
      have hd := hh d (by simp)
      rw [if_neg]
      · rw [hd]
      · rintro ⟨e, he, hne⟩
        exact hne ((hh e he).trans hd.symm)

variable {K : Type} [Field K] [LinearOrder K] [IsStrictOrderedRing K]

/-- `mass` (gmsh.py:775-776). -/
def mass (m : Nat × Nat → K) (dts : List (Nat × Nat)) : K := (dts.map m).sum

/-- The loop of `center_of_mass` (gmsh.py:779-784) for one coordinate `c` of the centres. -/
def loop (m c : Nat × Nat → K) : List (Nat × Nat) → K × K → K × K
  | [], a => a
  | d :: l, a => loop m c l (a.1 + m d * c d, a.2 + m d)

/-- `center_of_mass` (gmsh.py:778-788) for one coordinate; `none` stands for the pair of numbers `0, 0`. -/
def centerOfMass (m c : Nat × Nat → K) (dts : List (Nat × Nat)) : Option (K × K) :=
  let r := loop m c dts (0, 0)
  if 0 < r.2 then some (r.1 / r.2, r.2) else none

omit [LinearOrder K] [IsStrictOrderedRing K] in
theorem loop_eq (m c : Nat × Nat → K) : ∀ (l : List (Nat × Nat)) (a : K × K),
    loop m c l a = (a.1 + (l.map fun d => m d * c d).sum, a.2 + mass m l)
  | [], a => by simp [loop, mass]
  | d :: l, a => by
    rw [loop, loop_eq m c l]
    simp only [mass, List.map_cons, List.sum_cons]
    congr 1 <;> ring

theorem center_eq (m c : Nat × Nat → K) (l : List (Nat × Nat)) : centerOfMass m c l =
    if 0 < mass m l then some ((l.map fun d => m d * c d).sum / mass m l, mass m l) else none := by
  simp only [centerOfMass, loop_eq, zero_add]

/-- **C177.** The second result is `mass`, and the centre is inside all bounds of the centres of the entities. -/
theorem center_between {m c : Nat × Nat → K} {l : List (Nat × Nat)} (hm : ∀ d ∈ l, 0 ≤ m d) {x t : K} (h : centerOfMass m c l = some (x, t))
    {a b : K} (ha : ∀ d ∈ l, a ≤ c d) (hb : ∀ d ∈ l, c d ≤ b) : t = mass m l ∧ 0 < t ∧ a ≤ x ∧ x ≤ b := by
  rw [center_eq] at h
  split at h
  · next hp =>
    cases h
    refine ⟨rfl, hp, ?_, ?_⟩
    · rw [le_div_iff₀ hp]
      clear hp hb
      induction l with
      | nil => simp [mass]
      | cons d l ih =>
        have k := ih (fun e he => hm e (by simp [he])) (fun e he => ha e (by simp [he]))
        have k1 := mul_le_mul_of_nonneg_left (ha d (by simp)) (hm d (by simp))
        simp only [mass, List.map_cons, List.sum_cons] at k ⊢
        linarith [mul_add a (m d) (l.map m).sum, mul_comm a (m d)]
    · rw [div_le_iff₀ hp]
      clear hp ha
      induction l with
      | nil => simp [mass]
      | cons d l ih =>
        have k := ih (fun e he => hm e (by simp [he])) (fun e he => hb e (by simp [he]))
        have k1 := mul_le_mul_of_nonneg_left (hb d (by simp)) (hm d (by simp))
        simp only [mass, List.map_cons, List.sum_cons] at k ⊢
        linarith [mul_add b (m d) (l.map m).sum, mul_comm b (m d)]
  · cases h

/-- **C177.** The centre of two sets together balances the centres of the sets. -/
theorem center_append {m c : Nat × Nat → K} {l k : List (Nat × Nat)} {x t y u : K} (h1 : centerOfMass m c l = some (x, t))
    (h2 : centerOfMass m c k = some (y, u)) : centerOfMass m c (l ++ k) = some ((t * x + u * y) / (t + u), t + u) := by
  rw [center_eq] at *
  split at h1
  · next p1 =>
    split at h2
    · next p2 =>
      cases h1
      cases h2
      have e : mass m (l ++ k) = mass m l + mass m k := by simp [mass]
      rw [e, if_pos (add_pos p1 p2), List.map_append, List.sum_append, mul_div_cancel₀ _ p1.ne', mul_div_cancel₀ _ p2.ne']
    · cases h2
  · cases h1

/-- **C177.** The order of the entities does not matter. -/
theorem center_perm {m c : Nat × Nat → K} {l k : List (Nat × Nat)} (h : l.Perm k) : centerOfMass m c l = centerOfMass m c k := by
  rw [center_eq, center_eq]
  have e1 : mass m l = mass m k := (h.map m).sum_eq
  have e2 := (h.map fun d => m d * c d).sum_eq
  rw [e1, e2]

/-- The hypotheses, and a set without mass, as any set of points: the result has no coordinates. -/
theorem center_case : centerOfMass (fun d => (d.1 : ℚ)) (fun d => (d.2 : ℚ)) [(1, 4), (3, 8)] = some (7, 4) ∧
    centerOfMass (fun d => (d.1 : ℚ)) (fun d => (d.2 : ℚ)) [(2, 1)] = some (1, 2) ∧
    centerOfMass (fun d => (d.1 : ℚ)) (fun d => (d.2 : ℚ)) [(1, 4), (3, 8), (2, 1)] = some (5, 6) ∧
    centerOfMass (fun d => (d.1 : ℚ)) (fun d => (d.2 : ℚ)) [(0, 1), (0, 2)] = none ∧
    haveCommonDim [(2, 1), (2, 5)] = some (some 2) ∧ haveCommonDim [(2, 1), (1, 5)] = some none := by decide +kernel

end Verif.Gmsh.Mass
