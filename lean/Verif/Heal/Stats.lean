import Mathlib.Algebra.Order.Field.Basic
import Mathlib.Algebra.Order.Field.Rat
import Mathlib.Algebra.BigOperators.Group.List.Basic
import Mathlib.Tactic.Ring
import Mathlib.Tactic.Linarith
import Mathlib.Tactic.NormNum
import Verif.Heal.Model

/-!
Quality statistics and the node tolerance of heal_mesh.py.
-/
namespace Verif.Heal

/-! ### `quality_statistics` -/

/-- A float: a number of an ordered field, or one of the special values. -/
inductive Fl (K : Type) where
  | nan
  | ninf
  | fin (x : K)
  | inf
  deriving DecidableEq

variable {K : Type} [Field K] [LinearOrder K]

/-- `a < b` of floats -/
def Fl.lt : Fl K → Fl K → Bool
  | .nan, _ | _, .nan => false
  | .ninf, .ninf => false
  | .ninf, _ => true
  | .fin _, .ninf => false
  | .fin x, .fin y => decide (x < y)
  | .fin _, .inf => true
  | .inf, _ => false

/-- `a <= b` of floats -/
def Fl.le : Fl K → Fl K → Bool
  | .nan, _ | _, .nan => false
  | .ninf, _ => true
  | .fin _, .ninf => false
  | .fin x, .fin y => decide (x ≤ y)
  | .fin _, .inf => true
  | .inf, .inf => true
  | .inf, _ => false

/-- `bins` (heal_mesh.py:410-411): 2⁻¹⁵, …, 2⁻¹, 1, inf. -/
def bins : List (Fl K) := ((List.range 16).map fun i => Fl.fin (1 / 2 ^ (15 - i))) ++ [.inf]

/-- `np.argmax` of a boolean array: the first `True`, 0 if there is none (heal_mesh.py:420). -/
def argmaxBool (l : List Bool) : Nat := if l.any id then l.findIdx id else 0

/-- `hist[i] += 1` (heal_mesh.py:421) -/
def bump (l : List Nat) (i : Nat) : List Nat := l.modify i (· + 1)

/-- One turn of the loop (heal_mesh.py:413-421) for one quality method. `q` is the quality of an element, `none` when
computing it raises an exception. The state is the histogram and the list of bad elements. -/
def statStep (q : Elem → Option (Fl K)) (tol : K) (h : List Nat × List Nat) (p : Nat × Elem) :
    Option (List Nat × List Nat) :=
  if p.2.nodes.length - 1 > 1 then
    match q p.2 with
    | none => none
    | some v =>
      some (bump h.1 (argmaxBool (bins.map fun b => v.lt b)), if v.le (.fin tol) then h.2 ++ [p.1] else h.2)
  else some h

/-- `quality_statistics` (heal_mesh.py:402-422) for one quality method. -/
def qualityStats (q : Elem → Option (Fl K)) (tol : K) (els : List (Nat × Elem)) : Option (List Nat × List Nat) :=
  els.foldlM (statStep q tol) (List.replicate 17 0, [])

/-! Specification. -/

/-- Elements that are measured: triangles and tetrahedra. -/
def measured (els : List (Nat × Elem)) : List (Nat × Elem) := els.filter fun p => decide (3 ≤ p.2.nodes.length)

/-- The value belongs to the bin `j`: it is below the bound `j` and not below the one before. -/
def InBin (v : Fl K) (j : Nat) : Prop :=
  match v with
  | .nan => False
  | .inf => False
  | .ninf => j = 0
  | .fin x => (j = 0 ∧ x < 1 / 2 ^ 15) ∨ (∃ i, i < 15 ∧ j = i + 1 ∧ 1 / 2 ^ (15 - i) ≤ x ∧ x < 1 / 2 ^ (14 - i)) ∨ (j = 16 ∧ 1 ≤ x)

theorem bins_length : (bins (K := K)).length = 17 := by simp [bins]

theorem bins_get (i : Nat) (h : i < 16) : (bins (K := K))[i]? = some (.fin (1 / 2 ^ (15 - i))) := by
  simp only [bins]
  rw [List.getElem?_append_left (by simpa using h)]
  simp [List.getElem?_map, List.getElem?_range h]

theorem bins_last : (bins (K := K))[16]? = some .inf := by
  simp only [bins]
  rw [List.getElem?_append_right (by simp)]
  simp

section
variable [IsStrictOrderedRing K]

theorem argmax_eq {l : List Bool} {j : Nat} (hj : l[j]? = some true) (hl : ∀ i < j, l[i]? = some false) : argmaxBool l = j := by
  have hjl : j < l.length := by
    by_contra hc; rw [List.getElem?_eq_none (by omega)] at hj; cases hj
  have hany : l.any id = true := by
    rw [List.any_eq_true]
    exact ⟨l[j], List.getElem_mem hjl, by rw [List.getElem?_eq_getElem hjl] at hj; simpa using hj⟩
  simp only [argmaxBool, hany, if_true]
  rw [List.findIdx_eq hjl]
  rw [List.getElem?_eq_getElem hjl] at hj
  refine ⟨by simpa using hj, fun i hi => ?_⟩
  have := hl i hi
  rw [List.getElem?_eq_getElem (by omega)] at this
  simpa using this

theorem pow_half_le {a b : Nat} (h : a ≤ b) : (1 : K) / 2 ^ b ≤ 1 / 2 ^ a :=
  one_div_le_one_div_of_le (by positivity) (pow_le_pow_right₀ (by norm_num) h)

/-- A value that belongs to a bin is counted there. -/
theorem bin_of_inBin {v : Fl K} {j : Nat} (h : InBin v j) : argmaxBool (bins.map fun b => v.lt b) = j := by
  cases v with
  | nan => cases h
  | inf => cases h
  | ninf =>
    cases h
    refine argmax_eq ?_ (fun i hi => by omega)
    rw [List.getElem?_map, bins_get 0 (by omega)]; rfl
  | fin x =>
    rcases h with ⟨rfl, hx⟩ | ⟨i, hi, rfl, h1, h2⟩ | ⟨rfl, hx⟩
    · refine argmax_eq ?_ (fun i hi => by omega)
      rw [List.getElem?_map, bins_get 0 (by omega)]
      simpa [Fl.lt] using hx
    · refine argmax_eq ?_ (fun k hk => ?_)
      · rw [List.getElem?_map, bins_get _ (by omega)]
        have : 15 - (i + 1) = 14 - i := by omega
        simpa [Fl.lt, this] using h2
      · rw [List.getElem?_map, bins_get _ (by omega)]
        have : (1 : K) / 2 ^ (15 - k) ≤ 1 / 2 ^ (15 - i) := pow_half_le (by omega)
        simp only [Option.map_some, Fl.lt, Option.some.injEq, decide_eq_false_iff_not, not_lt]
        exact this.trans h1
    · refine argmax_eq ?_ (fun k hk => ?_)
      · rw [List.getElem?_map, bins_last]; rfl
      · rw [List.getElem?_map, bins_get _ (by omega)]
        have : (1 : K) / 2 ^ (15 - k) ≤ 1 / 2 ^ 0 := pow_half_le (by omega)
        simp only [Option.map_some, Fl.lt, Option.some.injEq, decide_eq_false_iff_not, not_lt]
        exact this.trans (by simpa using hx)

/-- The bins cover the finite values. -/
theorem inBin_exists (x : K) : ∃ j, j < 17 ∧ InBin (.fin x) j := by
  by_cases h0 : x < 1 / 2 ^ 15
  · exact ⟨0, by omega, Or.inl ⟨rfl, h0⟩⟩
  by_cases h1 : 1 ≤ x
  · exact ⟨16, by omega, Or.inr (Or.inr ⟨rfl, h1⟩)⟩
  push Not at h0 h1
  have key : ∀ n, n ≤ 15 → x < 1 / 2 ^ (15 - n) → ∃ j, j < 17 ∧ InBin (.fin x) j := by
    intro n
    induction n with
    | zero => intro _ h; exact absurd h (not_lt.mpr h0)
    | succ n ih =>
      intro hn h
      by_cases hx : x < 1 / 2 ^ (15 - n)
      · exact ih (by omega) hx
      · refine ⟨n + 1, by omega, Or.inr (Or.inl ⟨n, by omega, rfl, not_lt.mp hx, ?_⟩)⟩
        have : 14 - n = 15 - (n + 1) := by omega
        rw [this]; exact h
  exact key 15 le_rfl (by simpa using h1)

/-- NaN and infinite values fall in the lowest bin. -/
theorem bin_nan : argmaxBool ((bins (K := K)).map fun b => (Fl.nan : Fl K).lt b) = 0 := by
  have : ((bins (K := K)).map fun b => (Fl.nan : Fl K).lt b) = List.replicate 17 false := by
    rw [List.eq_replicate_iff]
    refine ⟨by simp [bins_length], fun b hb => ?_⟩
    obtain ⟨c, _, rfl⟩ := List.mem_map.mp hb
    cases c <;> rfl
  rw [this]; rfl

theorem bin_inf : argmaxBool ((bins (K := K)).map fun b => (Fl.inf : Fl K).lt b) = 0 := by
  have : ((bins (K := K)).map fun b => (Fl.inf : Fl K).lt b) = List.replicate 17 false := by
    rw [List.eq_replicate_iff]
    refine ⟨by simp [bins_length], fun b hb => ?_⟩
    obtain ⟨c, _, rfl⟩ := List.mem_map.mp hb
    cases c <;> rfl
  rw [this]; rfl

/-- The bin of a value, from its definition by intervals. -/
noncomputable def binOf (v : Fl K) : Nat := argmaxBool (bins.map fun b => v.lt b)

theorem binOf_lt (v : Fl K) : binOf v < 17 := by
  cases v with
  | nan => rw [binOf, bin_nan]; omega
  | inf => rw [binOf, bin_inf]; omega
  | ninf => rw [binOf, bin_of_inBin (v := .ninf) (j := 0) rfl]; omega
  | fin x =>
    obtain ⟨j, hj, h⟩ := inBin_exists x
    rw [binOf, bin_of_inBin h]; exact hj

/-- `binOf` is the only bin a finite value belongs to. -/
theorem binOf_iff (x : K) (j : Nat) : InBin (.fin x) j ↔ binOf (.fin x) = j := by
  constructor
  · exact bin_of_inBin
  · obtain ⟨k, _, hk⟩ := inBin_exists x
    intro h
    rw [binOf, bin_of_inBin hk] at h
    exact h ▸ hk

end

theorem bump_sum (l : List Nat) (i : Nat) (h : i < l.length) : (bump l i).sum = l.sum + 1 := by
  induction l generalizing i with
  | nil => simp at h
  | cons a l ih =>
    cases i with
    | zero => simp [bump, List.modify]; omega
    | succ i =>
      have := ih i (by simpa using h)
      simp only [bump, List.modify_succ_cons, List.sum_cons] at this ⊢
      omega

theorem bump_get (l : List Nat) (i j : Nat) (h : j < l.length) :
    (bump l i)[j]? = (l[j]?).map fun x => if i = j then x + 1 else x := by
  rw [bump, List.getElem?_modify]
  rw [List.getElem?_eq_getElem h]
  by_cases hij : i = j <;> simp [hij]

theorem bump_length (l : List Nat) (i : Nat) : (bump l i).length = l.length := by simp [bump]

section
variable [IsStrictOrderedRing K]

open Classical in
theorem stats_gen (q : Elem → Option (Fl K)) (tol : K) (els : List (Nat × Elem)) :
    ∀ (h0 h : List Nat × List Nat), h0.1.length = 17 → els.foldlM (statStep q tol) h0 = some h →
      h.1.length = 17 ∧ h.1.sum = h0.1.sum + (measured els).length ∧
      (∀ j < 17, ∃ c, h0.1[j]? = some c ∧ h.1[j]? = some (c + (measured els).countP fun p =>
        decide (∃ v, q p.2 = some v ∧ binOf v = j))) ∧
      h.2 = h0.2 ++ ((measured els).filter fun p => match q p.2 with
        | some v => v.le (.fin tol)
        | none => false).map Prod.fst := by
  induction els with
  | nil =>
    intro h0 h hl hh
    cases hh
    refine ⟨hl, rfl, fun j hj => ⟨h0.1[j], ?_, ?_⟩, by simp [measured]⟩ <;>
      simp [measured, List.getElem?_eq_getElem (by omega : j < h0.1.length)]
  | cons p els ih =>
    intro h0 h hl hh
    rw [List.foldlM_cons] at hh
    by_cases hp : 3 ≤ p.2.nodes.length
    · have hp' : p.2.nodes.length - 1 > 1 := by omega
      have hm : measured (p :: els) = p :: measured els := by simp [measured, hp]
      rcases hq : q p.2 with _ | v
      · simp [statStep, hp', hq] at hh
      · have hst : statStep q tol h0 p = some (bump h0.1 (binOf v), if v.le (.fin tol) then h0.2 ++ [p.1] else h0.2) := by
          simp only [statStep, if_pos hp', hq, binOf]
        rw [hst] at hh
        obtain ⟨h1, h2, h3, h4⟩ := ih _ h (by rw [bump_length]; exact hl) hh
        refine ⟨h1, ?_, fun j hj => ?_, ?_⟩
        · rw [h2, bump_sum _ _ (by rw [hl]; exact binOf_lt v), hm, List.length_cons]; omega
        · obtain ⟨c, hc, hc'⟩ := h3 j hj
          rw [bump_get _ _ _ (by omega)] at hc
          refine ⟨h0.1[j], List.getElem?_eq_getElem _, ?_⟩
          rw [List.getElem?_eq_getElem (by omega : j < h0.1.length), Option.map_some, Option.some.injEq] at hc
          rw [hc', hm, List.countP_cons, ← hc]
          by_cases hb : binOf v = j
          · simp [hq, hb]; omega
          · simp [hq, hb]
        · rw [h4, hm, List.filter_cons]
          by_cases hv : v.le (.fin tol) <;> simp [hq, hv]
    · have hp' : ¬ p.2.nodes.length - 1 > 1 := by omega
      have hm : measured (p :: els) = measured els := by simp [measured, hp]
      have hst : statStep q tol h0 p = some h0 := by simp only [statStep, if_neg hp']
      rw [hst] at hh
      rw [hm]
      exact ih h0 h hl hh

open Classical in
/-- **C34**: when no quality raises, the histogram has 17 bins whose sum is the number of triangles and tetrahedra, the
bad elements are exactly the measured elements with quality at most the tolerance, in the order of the mesh, and when every
quality is finite each bin counts exactly the elements with the quality in its interval. What is missing: a quality that is
NaN or infinite is counted in the lowest bin, see `nan_in_lowest_bin`. -/
theorem histogram_partial (q : Elem → Option (Fl K)) (tol : K) (els : List (Nat × Elem)) {hist bad : List Nat}
    (h : qualityStats q tol els = some (hist, bad)) :
    hist.length = 17 ∧ hist.sum = (els.filter fun p => decide (3 ≤ p.2.nodes.length)).length ∧
    (bad = (els.filter fun p => decide (3 ≤ p.2.nodes.length) && decide (∃ v, q p.2 = some v ∧ v.le (.fin tol))).map Prod.fst) ∧
    ((∀ p ∈ els, 3 ≤ p.2.nodes.length → ∃ x, q p.2 = some (.fin x)) → ∀ j < 17, hist[j]? = some
      ((els.filter fun p => decide (3 ≤ p.2.nodes.length)).countP fun p =>
        decide (∃ v, q p.2 = some v ∧ InBin v j))) := by
  obtain ⟨h1, h2, h3, h4⟩ := stats_gen q tol els _ _ (by simp) h
  refine ⟨h1, by simpa [measured] using h2, ?_, fun hq j hj => ?_⟩
  · refine Eq.trans h4 ?_
    simp only [List.nil_append, measured, List.filter_filter]
    congr 1
    refine List.filter_congr fun p _ => ?_
    rw [Bool.and_comm]
    congr 1
    rcases q p.2 with _ | v
    · simp
    · cases hv : v.le (.fin tol) <;> simp [hv]
  · obtain ⟨c, hc, hc'⟩ := h3 j hj
    rw [List.getElem?_replicate, if_pos hj, Option.some.injEq] at hc
    rw [hc', ← hc, Nat.zero_add]
    congr 1
    refine List.countP_congr fun p hp => ?_
    obtain ⟨hp1, hp2⟩ := List.mem_filter.mp hp
    obtain ⟨x, hx⟩ := hq p hp1 (by simpa using hp2)
    simp only [decide_eq_true_eq]
    constructor
    · rintro ⟨v, hv, hb⟩
      rw [hx] at hv; cases hv
      exact ⟨_, hx, (binOf_iff x j).mpr hb⟩
    · rintro ⟨v, hv, hb⟩
      rw [hx] at hv; cases hv
      exact ⟨_, hx, (binOf_iff x j).mp hb⟩

/-- An element whose quality is NaN or infinite is counted in the lowest bin, although it is below no bound, and it is not
reported among the bad elements. -/
theorem nan_in_lowest_bin (tol : K) (eid : Nat) (el : Elem) (h : 3 ≤ el.nodes.length) {v : Fl K} (hv : v = .nan ∨ v = .inf) :
    qualityStats (fun _ => some v) tol [(eid, el)] = some (1 :: List.replicate 16 0, []) := by
  have h' : el.nodes.length - 1 > 1 := by omega
  have hb : argmaxBool ((bins (K := K)).map fun b => v.lt b) = 0 := by
    rcases hv with rfl | rfl
    · exact bin_nan
    · exact bin_inf
  have hle : v.le (.fin tol) = false := by rcases hv with rfl | rfl <;> rfl
  simp only [qualityStats, List.foldlM_cons, List.foldlM_nil, statStep, if_pos h', hb, hle]
  rfl

end

/-- Division of floats, for the shape quality: a zero divisor gives NaN or an infinity. -/
def Fl.div (x y : K) : Fl K := if y = 0 then (if x = 0 then .nan else if 0 < x then .inf else .ninf) else .fin (x / y)

/-- `a - 1` of a float -/
def Fl.dec : Fl K → Fl K
  | .fin x => .fin (x - 1)
  | v => v

/-- `a * b` of floats -/
def Fl.mul : Fl K → Fl K → Fl K
  | .nan, _ | _, .nan => .nan
  | .fin x, .fin y => .fin (x * y)
  | .fin x, .inf | .inf, .fin x => if x = 0 then .nan else if 0 < x then .inf else .ninf
  | .fin x, .ninf | .ninf, .fin x => if x = 0 then .nan else if 0 < x then .ninf else .inf
  | .inf, .inf | .ninf, .ninf => .inf
  | .inf, .ninf | .ninf, .inf => .ninf

/-- `Triangle.gmsh_gamma` from the lengths of the edges (heal_mesh.py:158-169). -/
def triGamma (a b c : K) : Fl K :=
  let s := (a + b + c) / 2
  ((Fl.mul (.fin 8) (Fl.div s a).dec).mul (Fl.div s b).dec).mul (Fl.div s c).dec

/-- For positive lengths the quality is a finite number, the product in exact arithmetic. -/
theorem triGamma_fin {a b c : K} (ha : a ≠ 0) (hb : b ≠ 0) (hc : c ≠ 0) :
    triGamma a b c = .fin (8 * ((a + b + c) / 2 / a - 1) * ((a + b + c) / 2 / b - 1) * ((a + b + c) / 2 / c - 1)) := by
  simp [triGamma, Fl.div, Fl.dec, Fl.mul, ha, hb, hc]

/-- The quality of a triangle with two coinciding nodes is NaN: with `nan_in_lowest_bin`, such a triangle is not reported as
bad. -/
theorem triGamma_zero_edge [IsStrictOrderedRing K] {b : K} (hb : 0 < b) : triGamma 0 b b = .nan := by
  have h0 : (0 : K) < (0 + b + b) / 2 := by linarith [half_pos hb]
  have h1 : (0 + b + b) / 2 / b - 1 = 0 := by
    have : (0 + b + b) / 2 = b := by ring
    rw [this, div_self hb.ne', sub_self]
  simp only [triGamma, Fl.div, if_neg hb.ne', if_pos, if_neg h0.ne', if_pos h0, Fl.dec, h1]
  simp [Fl.mul]

/-- Two triangles of quality 1 and 24/25 and a line: the line is not counted. -/
example : qualityStats (K := ℚ) (fun e => if e.tags = [] then some (triGamma 1 1 1) else some (triGamma 3 4 5)) (97 / 100)
    [(1, ⟨2, [], [1, 2, 3]⟩), (2, ⟨1, [], [1, 2]⟩), (7, ⟨2, [1], [2, 3, 4]⟩)] =
    some ([0, 0, 0, 0, 0, 0, 0, 0, 0, 0, 0, 0, 0, 0, 0, 1, 1], [7]) := by decide +kernel

/-! ### The node tolerance -/

/-- `_abs_node_tol` (heal_mesh.py:230-236). The loop `for n in self.mesh.nodes` runs over the keys of the dictionary, so
`np.maximum(aabb_max, n)` sees node ids; all three coordinates are equal, one is kept. The mesh has a node (otherwise
`max` in line 223 has raised). -/
def absNodeTol {P : Type} (nodeTol : K) (nodes : List (Nat × P)) : K :=
  match nodes.map fun p => ((p.1 : Nat) : K) with
  | [] => 0
  | n :: ns => nodeTol * (ns.foldl max n - ns.foldl min n)

/-- **C65** (what holds instead): the tolerance does not depend on the positions of the nodes at all, only on their ids. -/
theorem tolerance_ignores_positions {P Q : Type} (nodeTol : K) (nodes : List (Nat × P)) (nodes' : List (Nat × Q))
    (h : nodes.map Prod.fst = nodes'.map Prod.fst) : absNodeTol nodeTol nodes = absNodeTol nodeTol nodes' := by
  have e : ∀ {R : Type} (l : List (Nat × R)), (l.map fun p => ((p.1 : Nat) : K)) = (l.map Prod.fst).map Nat.cast := by
    intro R l; simp
  simp only [absNodeTol, e, h]

theorem foldl_max_spec (l : List K) (n : K) : l.foldl max n ∈ n :: l ∧ ∀ y ∈ n :: l, y ≤ l.foldl max n := by
  induction l generalizing n with
  | nil => simp
  | cons a l ih =>
    obtain ⟨h1, h2⟩ := ih (max n a)
    simp only [List.foldl_cons]
    refine ⟨?_, fun y hy => ?_⟩
    · rcases List.mem_cons.1 h1 with h | h
      · rw [h]
        rcases max_choice n a with e | e <;> simp [e]
      · simp [h]
    · have h3 := h2 _ List.mem_cons_self
      rcases List.mem_cons.1 hy with rfl | hy
      · exact (le_max_left _ _).trans h3
      · rcases List.mem_cons.1 hy with rfl | hy
        · exact (le_max_right _ _).trans h3
        · exact h2 y (by simp [hy])

theorem foldl_min_spec (l : List K) (n : K) : l.foldl min n ∈ n :: l ∧ ∀ y ∈ n :: l, l.foldl min n ≤ y := by
  induction l generalizing n with
  | nil => simp
  | cons a l ih =>
    obtain ⟨h1, h2⟩ := ih (min n a)
    simp only [List.foldl_cons]
    refine ⟨?_, fun y hy => ?_⟩
    · rcases List.mem_cons.1 h1 with h | h
      · rw [h]
        rcases min_choice n a with e | e <;> simp [e]
      · simp [h]
    · have h3 := h2 _ List.mem_cons_self
      rcases List.mem_cons.1 hy with rfl | hy
      · exact h3.trans (min_le_left _ _)
      · rcases List.mem_cons.1 hy with rfl | hy
        · exact h3.trans (min_le_right _ _)
        · exact h2 y (by simp [hy])

/-- **C65** (what holds instead): the tolerance is relative to the difference of the largest and the smallest id. -/
theorem tolerance_of_ids [IsStrictOrderedRing K] {P : Type} (nodeTol : K) {nodes : List (Nat × P)} (h : nodes ≠ []) : ∃ a ∈ nodes, ∃ b ∈ nodes,
    (∀ p ∈ nodes, a.1 ≤ p.1 ∧ p.1 ≤ b.1) ∧ absNodeTol nodeTol nodes = nodeTol * ((b.1 : K) - (a.1 : K)) := by
  rcases nodes with _ | ⟨p, l⟩
  · exact absurd rfl h
  · obtain ⟨m1, m2⟩ := foldl_max_spec (l.map fun p => ((p.1 : Nat) : K)) (p.1 : K)
    obtain ⟨n1, n2⟩ := foldl_min_spec (l.map fun p => ((p.1 : Nat) : K)) (p.1 : K)
    rw [← List.map_cons (f := fun p : Nat × P => ((p.1 : Nat) : K))] at m1 m2 n1 n2
    obtain ⟨b, hb, eb⟩ := List.mem_map.1 m1
    obtain ⟨a, ha, ea⟩ := List.mem_map.1 n1
    refine ⟨a, ha, b, hb, fun q hq => ⟨?_, ?_⟩, ?_⟩
    · have := n2 _ (List.mem_map_of_mem hq)
      rw [← ea] at this
      exact Nat.cast_le.1 this
    · have := m2 _ (List.mem_map_of_mem hq)
      rw [← eb] at this
      exact Nat.cast_le.1 this
    · simp only [absNodeTol, List.map_cons, eb, ea]

/-- Size of the mesh in the direction of one axis, for positions on a line. -/
def extent (nodes : List (Nat × K)) : K :=
  match nodes.map Prod.snd with
  | [] => 0
  | x :: xs => xs.foldl max x - xs.foldl min x

/-- **C65** is false: the documented tolerance is relative to the diameter of the mesh, but two meshes of diameters 1 and
1000 with the same ids get the same tolerance, larger than the first mesh. -/
theorem tolerance_not_relative : ∃ small big : List (Nat × ℚ), extent small = 1 ∧ extent big = 1000 ∧
    absNodeTol (1 / 2 : ℚ) small = absNodeTol (1 / 2 : ℚ) big ∧ extent small < absNodeTol (1 / 2 : ℚ) small :=
  ⟨[(1, 0), (2, 1 / 2), (9, 1)], [(1, 0), (2, 1 / 2), (9, 1000)], by decide +kernel⟩

end Verif.Heal
