import Verif.Decomp.FanRun
import Verif.Decomp.Nest
import Mathlib.Algebra.Order.Ring.Rat
import Mathlib.Algebra.Field.Rat
import Mathlib.Analysis.SpecialFunctions.Complex.Arg
import Mathlib.Tactic.FieldSimp
import Mathlib.Tactic.Positivity

/-! Concrete runs: cases that meet the hypotheses of the theorems, and runs that show defects of the code. -/
namespace Verif.Decomp

/-! ### Angles -/

/-- The geometry of the code over the reals: `np.angle` is the argument in `(-π, π]` (point.py:60). -/
noncomputable def realGeom (tiny eps : ℝ) : Geom ℝ where
  ang := fun v => Complex.arg ⟨v.1, v.2⟩
  twoPi := 2 * Real.pi
  tiny := tiny
  eps := eps

theorem realGeom_ok (tiny eps : ℝ) : AngleOk (realGeom tiny eps) where
  window := ⟨-Real.pi, fun v => ⟨Complex.neg_pi_lt_arg _, by
    have := Complex.arg_le_pi ⟨v.1, v.2⟩
    change Complex.arg ⟨v.1, v.2⟩ ≤ -Real.pi + 2 * Real.pi
    linarith⟩⟩
  scale := fun t ht v => by
    change Complex.arg ⟨t * v.1, t * v.2⟩ = Complex.arg ⟨v.1, v.2⟩
    rw [← Complex.arg_real_mul ⟨v.1, v.2⟩ ht]
    congr 1
    apply Complex.ext <;> simp
  opp := fun v hv => by
    change Complex.arg ⟨-v.1, -v.2⟩ ≠ Complex.arg ⟨v.1, v.2⟩
    have h0 : (⟨v.1, v.2⟩ : ℂ) ≠ 0 := by
      intro h
      have h1 := congrArg Complex.re h
      have h2 := congrArg Complex.im h
      exact hv (Prod.ext h1 h2)
    have hneg : (⟨-v.1, -v.2⟩ : ℂ) = -⟨v.1, v.2⟩ := by apply Complex.ext <;> simp
    rw [hneg]
    generalize (⟨v.1, v.2⟩ : ℂ) = z at h0
    intro h
    rw [Complex.arg_eq_arg_iff (neg_ne_zero.2 h0) h0, norm_neg] at h
    have hz : (‖z‖ : ℂ) ≠ 0 := by simpa using h0
    rw [div_self hz, one_mul] at h
    have : z + z = 0 := by nth_rewrite 1 [← h]; ring
    rw [← two_mul] at this
    exact h0 ((mul_eq_zero.1 this).resolve_left two_ne_zero)

/-- A rational angle: the position on the square `|x| + |y| = 1`, four for a full turn. -/
def squareAng (v : ℚ × ℚ) : ℚ :=
  if 0 ≤ v.2 then (if 0 ≤ v.1 then v.2 / (v.1 + v.2) else 1 - v.1 / (v.2 - v.1))
  else (if v.1 < 0 then -2 - v.2 / (-v.1 - v.2) else -1 + v.1 / (v.1 - v.2))

def demo : Geom ℚ where
  ang := squareAng
  twoPi := 4
  tiny := 1 / 10000000000
  eps := 1 / 10000000000

theorem demo_ok : AngleOk demo where
  window := ⟨-2, fun v => by
    change -2 < squareAng v ∧ squareAng v ≤ -2 + 4
    unfold squareAng
    split_ifs with h1 h2 h2
    · by_cases h0 : v.1 + v.2 = 0
      · rw [h0, div_zero]; norm_num
      · have hp : 0 < v.1 + v.2 := lt_of_le_of_ne (by linarith) (Ne.symm h0)
        have a1 : 0 ≤ v.2 / (v.1 + v.2) := div_nonneg h1 hp.le
        have a2 : v.2 / (v.1 + v.2) ≤ 1 := (div_le_one hp).2 (by linarith)
        constructor <;> linarith
    · have hp : 0 < v.2 - v.1 := by linarith
      have a1 : -1 ≤ v.1 / (v.2 - v.1) := by rw [le_div_iff₀ hp]; linarith
      have a2 : v.1 / (v.2 - v.1) < 0 := div_neg_of_neg_of_pos (by linarith) hp
      constructor <;> linarith
    · have hp : 0 < -v.1 - v.2 := by linarith
      have a1 : -1 ≤ v.2 / (-v.1 - v.2) := by rw [le_div_iff₀ hp]; linarith
      have a2 : v.2 / (-v.1 - v.2) < 0 := div_neg_of_neg_of_pos (by linarith) hp
      constructor <;> linarith
    · have hp : 0 < v.1 - v.2 := by linarith
      have a1 : 0 ≤ v.1 / (v.1 - v.2) := div_nonneg (by linarith) hp.le
      have a2 : v.1 / (v.1 - v.2) < 1 := (div_lt_one hp).2 (by linarith)
      constructor <;> linarith⟩
  scale := fun t ht v => by
    change squareAng (t * v.1, t * v.2) = squareAng v
    have e1 : (0 ≤ t * v.2) = (0 ≤ v.2) := propext (mul_nonneg_iff_of_pos_left ht)
    have e2 : (0 ≤ t * v.1) = (0 ≤ v.1) := propext (mul_nonneg_iff_of_pos_left ht)
    have e3 : (t * v.1 < 0) = (v.1 < 0) := by rw [← not_le, ← not_le, e2]
    unfold squareAng
    simp only [e1, e2, e3, ← mul_add, ← mul_sub, ← mul_neg]
    simp only [mul_div_mul_left _ _ ht.ne']
  opp := fun v hv => by
    change squareAng (-v.1, -v.2) ≠ squareAng v
    obtain ⟨x, y⟩ := v
    have hxy : x ≠ 0 ∨ y ≠ 0 := by
      by_contra h
      rw [not_or, not_not, not_not] at h
      exact hv (by rw [h.1, h.2])
    unfold squareAng
    dsimp only
    rcases lt_trichotomy x 0 with hx | hx | hx <;> rcases lt_trichotomy y 0 with hy | hy | hy
    · rw [if_pos (by linarith), if_pos (by linarith), if_neg (by linarith), if_pos hx]
      have hp : 0 < -x - y := by linarith
      have a1 : 0 < -y / (-x + -y) := div_pos (by linarith) (by linarith)
      have a2 : -1 < y / (-x - y) := by rw [lt_div_iff₀ hp]; linarith
      intro h; linarith
    · subst hy
      rw [if_pos (by linarith), if_pos (by linarith), if_pos (by linarith), if_neg (by linarith)]
      have : x / (0 - x) = -1 := by rw [zero_sub, div_neg, div_self hx.ne]
      rw [this]; norm_num
    · rw [if_neg (by linarith), if_neg (by linarith), if_pos hy.le, if_neg (by linarith)]
      have hp : 0 < y - x := by linarith
      have a1 : x / (y - x) < 0 := div_neg_of_neg_of_pos hx hp
      have a2 : -x / (-x - -y) < 1 := (div_lt_one (by linarith)).2 (by linarith)
      intro h; linarith
    · subst hx
      rw [if_pos (by linarith), if_pos (by linarith), if_neg (by linarith), if_neg (by linarith)]
      have a1 : -y / (-0 + -y) = 1 := by rw [neg_zero, zero_add, div_self (by linarith)]
      rw [a1, zero_div]; norm_num
    · subst hx hy; simp at hxy
    · subst hx
      rw [if_neg (by linarith), if_neg (by linarith), if_pos hy.le, if_pos le_rfl]
      have a1 : y / (0 + y) = 1 := by rw [zero_add, div_self hy.ne']
      rw [a1, neg_zero, zero_div]; norm_num
    · rw [if_pos (by linarith), if_neg (by linarith), if_neg (by linarith), if_neg (by linarith)]
      have hp : 0 < x - y := by linarith
      have a1 : -x / (-y - -x) < 0 := div_neg_of_neg_of_pos (by linarith) (by linarith)
      have a2 : x / (x - y) < 1 := (div_lt_one hp).2 (by linarith)
      intro h; linarith
    · subst hy
      rw [if_pos (by linarith), if_neg (by linarith), if_pos le_rfl, if_pos hx.le]
      have : -x / (-0 - -x) = -1 := by rw [neg_zero, zero_sub, neg_neg, neg_div, div_self hx.ne']
      rw [this, zero_div]; norm_num
    · rw [if_neg (by linarith), if_pos (by linarith), if_pos hy.le, if_pos hx.le]
      have hp : 0 < x + y := by linarith
      have a1 : 0 < y / (x + y) := div_pos hy hp
      have a2 : -1 < -y / (- -x - -y) := by rw [lt_div_iff₀ (by linarith)]; linarith
      intro h; linarith

/-! ### Checked runs -/

def betweenB (a m b : ℚ × ℚ) : Bool :=
  let t := if b.1 = a.1 then (m.2 - a.2) / (b.2 - a.2) else (m.1 - a.1) / (b.1 - a.1)
  decide (0 < t) && decide (t < 1) && decide (m = (a.1 + t * (b.1 - a.1), a.2 + t * (b.2 - a.2)))

theorem betweenB_ok {a m b : ℚ × ℚ} (h : betweenB a m b = true) : Between a m b := by
  unfold betweenB at h
  simp only [Bool.and_eq_true, decide_eq_true_eq] at h
  exact ⟨_, h.1.1, h.1.2, h.2⟩

def newDirB (s : St ℚ) (a b : Id) : Bool :=
  s.sid.live.all fun e => [false, true].all fun v =>
    decide (s.vtx (e, v) ≠ a) || decide (dirAng demo s (e, v) ≠ demo.ang (diff s a b))

theorem newDirB_ok {s : St ℚ} {a b : Id} (h : newDirB s a b = true) : NewDir demo s a b := by
  rintro ⟨e, v⟩ he hv
  unfold newDirB at h
  rw [List.all_eq_true] at h
  have := List.all_eq_true.1 (h e he) v (by cases v <;> simp)
  simp only [Bool.or_eq_true, decide_eq_true_eq] at this
  exact this.resolve_left (fun hh => hh hv)

def delOkB (s : St ℚ) (e : Id) : Bool :=
  [false, true].all fun v =>
    match s.wire (e, v), s.wire (e, !v) with
    | some w, some w' =>
      match s.wpoly w with
      | some q => decide (w = w') || decide (s.parent w ≠ some w') || decide (w = s.outer q)
      | none => true
    | _, _ => true

theorem delOkB_ok {s : St ℚ} {e : Id} (h : delOkB s e = true) : DelOk s e := by
  intro v w w' q h1 h2 h3 h4 h5
  unfold delOkB at h
  have := List.all_eq_true.1 h v (by cases v <;> simp)
  simp only [h1, h2, h4, Bool.or_eq_true, decide_eq_true_eq] at this
  rcases this with (h | h) | h
  · exact absurd h h3
  · exact absurd h5 h
  · exact h

def joinableB (s : St ℚ) (mid e0 e1 : Id) : Bool :=
  decide (e0 ∈ s.sid.live) && decide (e1 ∈ s.sid.live) && decide (e0 ≠ e1) &&
    decide (s.vtx (e0, false) = mid ∨ s.vtx (e0, true) = mid) && decide (s.vtx (e1, false) = mid ∨ s.vtx (e1, true) = mid) &&
    s.sid.live.all fun e => [false, true].all fun u => [false, true].all fun v => [false, true].all fun w =>
      decide (s.vtx (e0, v) = mid) || decide (s.vtx (e1, w) = mid) ||
        !(decide (s.vtx (e, u) = s.vtx (e0, v)) && decide (s.vtx (e, !u) = s.vtx (e1, w)))

theorem joinableB_ok {s : St ℚ} {mid e0 e1 : Id} (h : joinableB s mid e0 e1 = true) : Joinable s mid e0 e1 := by
  unfold joinableB at h
  simp only [Bool.and_eq_true, decide_eq_true_eq] at h
  obtain ⟨⟨⟨⟨⟨h1, h2⟩, h3⟩, h4⟩, h5⟩, h6⟩ := h
  refine ⟨h1, h2, h3, ?_, ?_, ?_⟩
  · rcases h4 with h | h
    exacts [⟨false, h⟩, ⟨true, h⟩]
  · rcases h5 with h | h
    exacts [⟨false, h⟩, ⟨true, h⟩]
  · intro v w hv hw e he u hh
    have hm : ∀ b : Bool, b ∈ [false, true] := by intro b; cases b <;> simp
    have := List.all_eq_true.1 (List.all_eq_true.1 (List.all_eq_true.1 (List.all_eq_true.1 h6 e he) u (hm u)) v (hm v)) w (hm w)
    simp only [Bool.or_eq_true, decide_eq_true_eq, Bool.not_eq_true', Bool.and_eq_false_iff, decide_eq_false_iff_not] at this
    rcases this with (h | h) | h
    · exact hv h
    · exact hw h
    · rcases h with h | h
      exacts [h hh.1, h hh.2]

/-- Valid calls. -/
def validB (s : St ℚ) : Op ℚ → Bool
  | .addPoint _ _ => true
  | .removePoint _ => true
  | .newSegment a b => decide (a ∈ s.pid.live) && decide (b ∈ s.pid.live)
  | .deleteSegment e => decide (e ∈ s.sid.live)
  | .splitSegment e mid => decide (e ∈ s.sid.live) && decide (mid ∈ s.pid.live) && decide (s.pseg mid = none)
  | .joinSegments mid e0 e1 => joinableB s mid e0 e1
  | .move _ _ => true

theorem validB_ok {s : St ℚ} {o : Op ℚ} (h : validB s o = true) : Valid s o := by
  cases o <;> simp only [validB, Bool.and_eq_true, decide_eq_true_eq] at h <;> simp only [Valid]
  · exact h
  · exact h
  · exact ⟨h.1.1, h.1.2, h.2⟩
  · exact joinableB_ok h

/-- Sound and proper calls. -/
def goodB (s : St ℚ) (o : Op ℚ) : Bool :=
  validB s o && match o with
  | .newSegment a b => decide (s.table (a, b) ≠ none) || decide (s.table (b, a) ≠ none) || (newDirB s a b && newDirB s b a)
  | .deleteSegment e => delOkB s e
  | .splitSegment e mid => betweenB (s.xy (s.vtx (e, false))) (s.xy mid) (s.xy (s.vtx (e, true)))
  | .joinSegments mid e0 e1 => [false, true].all fun v =>
      decide (s.vtx (e0, v) ≠ mid) || (decide (s.vtx (e1, v) ≠ mid) && [false, true].all fun w =>
        decide (s.vtx (e1, w) ≠ mid) || betweenB (s.xy (s.vtx (e0, !v))) (s.xy mid) (s.xy (s.vtx (e1, !w))))
  | .move p _ => decide (p ∈ s.pid.live) && decide (s.pseg p = none)
  | _ => true

theorem goodB_ok {s : St ℚ} {o : Op ℚ} (h : goodB s o = true) : Sound s o ∧ Proper demo s o := by
  unfold goodB at h
  rw [Bool.and_eq_true] at h
  obtain ⟨h1, h2⟩ := h
  have hm : ∀ b : Bool, b ∈ [false, true] := by intro b; cases b <;> simp
  have hV := validB_ok h1
  cases o with
  | addPoint => exact ⟨⟨hV, trivial⟩, trivial⟩
  | removePoint => exact ⟨⟨hV, trivial⟩, trivial⟩
  | newSegment a b =>
    refine ⟨⟨hV, trivial⟩, ?_⟩
    simp only [Bool.or_eq_true, Bool.and_eq_true, decide_eq_true_eq] at h2
    rcases h2 with (h | h) | h
    · exact Or.inl h
    · exact Or.inr (Or.inl h)
    · exact Or.inr (Or.inr ⟨newDirB_ok h.1, newDirB_ok h.2⟩)
  | deleteSegment e => exact ⟨⟨hV, delOkB_ok h2⟩, trivial⟩
  | splitSegment e mid => exact ⟨⟨hV, trivial⟩, betweenB_ok h2⟩
  | joinSegments mid e0 e1 =>
    refine ⟨⟨hV, fun v hv => ?_⟩, fun v w hv hw => ?_⟩
    · have := List.all_eq_true.1 h2 v (hm v)
      simp only [Bool.or_eq_true, Bool.and_eq_true, decide_eq_true_eq] at this
      exact (this.resolve_left (fun hh => hh hv)).1
    · have := List.all_eq_true.1 h2 v (hm v)
      rw [Bool.or_eq_true, Bool.and_eq_true] at this
      simp only [decide_eq_true_eq] at this
      have := List.all_eq_true.1 (this.resolve_left (fun hh => hh hv)).2 w (hm w)
      simp only [Bool.or_eq_true, decide_eq_true_eq] at this
      exact betweenB_ok (this.resolve_left (fun hh => hh hw))
  | move p d =>
    simp only [Bool.and_eq_true, decide_eq_true_eq] at h2
    exact ⟨⟨hV, trivial⟩, h2⟩

/-- Run with a test before every call. -/
def tested (t : St ℚ → Op ℚ → Bool) : List (Op ℚ) → St ℚ → Option (St ℚ)
  | [], s => some s
  | o :: os, s => if t s o then
      match step demo s o with
      | .ok s => tested t os s
      | .error _ => none
    else none

/-- The state after a run. -/
def after (l : List (Op ℚ)) : St ℚ :=
  match tested validB l init with
  | some s => s
  | none => init

theorem tested_reach {l : List (Op ℚ)} : ∀ {s s' : St ℚ}, Reach demo s → tested validB l s = some s' → Reach demo s' := by
  induction l with
  | nil => intro s s' h hs; exact Option.some.inj hs ▸ h
  | cons o l ih =>
    intro s s' h hs
    simp only [tested] at hs
    split at hs
    · next ht =>
      split at hs
      · next s1 h1 => exact ih (.step h (validB_ok ht) h1) hs
      · cases hs
    · cases hs

theorem tested_good {l : List (Op ℚ)} : ∀ {s s' : St ℚ}, SoundReach demo s → ReachBy demo (Proper demo) s →
    tested goodB l s = some s' → SoundReach demo s' ∧ ReachBy demo (Proper demo) s' ∧ tested validB l s = some s' := by
  induction l with
  | nil => intro s s' h h2 hs; exact ⟨Option.some.inj hs ▸ h, Option.some.inj hs ▸ h2, hs⟩
  | cons o l ih =>
    intro s s' h h' hs
    simp only [tested] at hs ⊢
    split at hs
    · next ht =>
      have hv : validB s o = true := by
        unfold goodB at ht
        exact (Bool.and_eq_true _ _ ▸ ht).1
      rw [if_pos hv]
      split at hs
      · next s1 h1 => exact ih (.step h (goodB_ok ht).1 h1) (.step h' (goodB_ok ht).1.1 (goodB_ok ht).2 h1) hs
      · cases hs
    · cases hs

theorem after_reach (l : List (Op ℚ)) : Reach demo (after l) := by
  unfold after
  split
  · next s h => exact tested_reach .init h
  · exact .init

theorem after_good {l : List (Op ℚ)} (h : (tested goodB l init).isSome = true) :
    SoundReach demo (after l) ∧ ReachBy demo (Proper demo) (after l) := by
  obtain ⟨s, hs⟩ := Option.isSome_iff_exists.1 h
  obtain ⟨h1, h2, h3⟩ := tested_good .init .init hs
  unfold after
  rw [h3]
  exact ⟨h1, h2⟩

/-- Links of the segments. -/
def links (s : St ℚ) : List (Nat × Option HE × Option HE) :=
  s.sid.live.map fun e => (e, s.next (e, false), s.next (e, true))

/-- Wires at the segments. -/
def sides (s : St ℚ) : List (Nat × Option Nat × Option Nat) :=
  s.sid.live.map fun e => (e, s.wire (e, false), s.wire (e, true))

/-- Parents, childs and polygons of the wires. -/
def nesting (s : St ℚ) : List (Nat × Option Nat × List Nat × Option Nat) :=
  s.wid.live.map fun w => (w, s.parent w, s.childs w, s.wpoly w)

/-- A square with a diagonal, a split side, a segment inside one triangle and a segment hanging outside. -/
def house : List (Op ℚ) :=
  [.addPoint (0, 0) 0, .addPoint (10, 0) 0, .addPoint (10, 10) 0, .addPoint (0, 10) 0,
    .newSegment 0 1, .newSegment 1 2, .newSegment 2 3, .newSegment 3 0, .newSegment 0 2,
    .addPoint (7, 2) 1, .addPoint (8, 2) 1, .newSegment 4 5, .addPoint (5, 0) 0, .splitSegment 0 6,
    .addPoint (-3, 3) 0, .newSegment 7 3]

theorem house_good : SoundReach demo (after house) ∧ ReachBy demo (Proper demo) (after house) :=
  after_good (by decide +kernel)

/-- The run ends in the expected state. -/
theorem house_links : links (after house) =
      [(0, some (3, false), some (6, true)), (1, some (6, false), some (4, false)), (2, some (1, false), some (3, true)),
        (3, some (7, false), some (4, true)), (4, some (0, true), some (2, true)), (5, some (5, true), some (5, false)),
        (6, some (0, false), some (1, true)), (7, some (7, true), some (2, false))] := by decide +kernel

theorem house_sides : sides (after house) =
      [(0, some 1, some 2), (1, some 1, some 2), (2, some 1, some 3), (3, some 1, some 3), (4, some 2, some 3),
        (5, some 4, some 4), (6, some 1, some 2), (7, some 1, some 1)] := by decide +kernel

theorem house_nesting : nesting (after house) =
      [(0, none, [1], some 0), (1, some 0, [2, 3], some 0), (2, some 1, [4], some 1), (3, some 1, [], some 2),
        (4, some 2, [], some 1)] := by decide +kernel

/-! ### Cases of the theorems -/

example := next_permutation (after_reach house)

/-- Three segments meet at the corner 2 of the square, in clockwise order. -/
example : (around (after house) (4, true)).toOption = some [(4, true), (2, false), (1, true)] := by decide +kernel

example : (previous (after house) (4, true)).toOption = some (3, true) ∧ (after house).next (3, true) = some (4, true) := by
  decide +kernel

example := around_exact (after_reach house) (d := (4, true)) (by decide +kernel)
example := previous_exact (after_reach house) (d := (4, true)) (by decide +kernel)
example := table_exact (after_reach house)

/-- `new_segment` on the ends of the diagonal, in the other direction. -/
example : ∃ e' s', newSegment demo 2 0 (after house) = .ok (e', s') ∧ e' = 4 ∧ s' = { after house with change := .none } := by
  have h : ((newSegment demo 2 0 (after house)).toOption).isSome = true := by decide +kernel
  cases hs : newSegment demo 2 0 (after house) with
  | error e => rw [hs] at h; cases h
  | ok r =>
    obtain ⟨h1, h2⟩ := newSegment_connected (after_reach house) (e := 4) (v := true) (by decide +kernel) (by decide +kernel)
      (by decide +kernel) (e' := r.1) (s' := r.2) hs
    exact ⟨r.1, r.2, rfl, h1, h2⟩

/-- Does `new_segment` give a new segment that can be deleted again. -/
def newDelB (s : St ℚ) (a b : Id) : Bool :=
  match newSegment demo a b s with
  | .ok (e, s1) => decide (e ∉ s.sid.live) && delOkB s1 e && (deleteSegment demo e s1).toOption.isSome
  | .error _ => false

theorem newDelB_ok {s : St ℚ} {a b : Id} (h : newDelB s a b = true) : ∃ e s1 s2, newSegment demo a b s = .ok (e, s1) ∧
    e ∉ s.sid.live ∧ DelOk s1 e ∧ deleteSegment demo e s1 = .ok s2 := by
  unfold newDelB at h
  split at h
  · next e s1 h1 =>
    simp only [Bool.and_eq_true, decide_eq_true_eq] at h
    obtain ⟨⟨h2, h3⟩, h4⟩ := h
    cases h5 : deleteSegment demo e s1 with
    | error _ => rw [h5] at h4; cases h4
    | ok s2 => exact ⟨e, s1, s2, h1, h2, delOkB_ok h3, h5⟩
  · cases h

/-- A triangle is cut in two parts and restored. -/
example : ∃ e s1 s2, newSegment demo 6 2 (after house) = .ok (e, s1) ∧ deleteSegment demo e s1 = .ok s2 ∧
    (∀ d : HE, d.1 ∈ (after house).sid.live → s2.next d = (after house).next d) ∧
    s2.wid.live.length = (after house).wid.live.length ∧ s1.wid.live.length ≠ s2.wid.live.length := by
  obtain ⟨e, s1, s2, h1, h2, h3, h4⟩ := newDelB_ok (s := after house) (a := 6) (b := 2) (by decide +kernel)
  have ha : 6 ∈ (after house).pid.live := by decide +kernel
  have hb : 2 ∈ (after house).pid.live := by decide +kernel
  have k1 := new_delete (after_reach house) ha hb h1 h2 h4
  have k2 := new_delete_wires_partial house_good.1 ha hb h1 h2 h3 h4
  refine ⟨e, s1, s2, h1, h4, fun d hd => (k1.2.1 d hd).1, k2.2.1, ?_⟩
  have h6 : ((newSegment demo 6 2 (after house)).toOption.map fun r => r.2.wid.live.length) = some 6 := by decide +kernel
  rw [h1] at h6
  have h7 := Option.some.inj h6
  have h8 : (after house).wid.live.length = 5 := by decide +kernel
  rw [k2.2.1, h8]
  dsimp only at h7
  omega

/-- The segment inside is connected with the boundary and disconnected again. -/
example : newDelB (after house) 5 6 = true := by decide +kernel

def splitJoinB (s : St ℚ) (e mid : Id) : Bool :=
  match splitSegment e mid s with
  | .ok (n, s1) => (joinSegments mid e n s1).toOption.isSome
  | .error _ => false

theorem splitJoinB_ok {s : St ℚ} {e mid : Id} (h : splitJoinB s e mid = true) :
    ∃ n s1 s2, splitSegment e mid s = .ok (n, s1) ∧ joinSegments mid e n s1 = .ok s2 := by
  unfold splitJoinB at h
  split at h
  · next n s1 h1 =>
    cases h5 : joinSegments mid e n s1 with
    | error _ => rw [h5] at h; cases h
    | ok s2 => exact ⟨n, s1, s2, h1, h5⟩
  · cases h

def house2 : List (Op ℚ) := house ++ [.addPoint (10, 5) 0]

/-- A side is split and joined: all links are restored, the vector is not. -/
example : ∃ n s1 s2, splitSegment 1 8 (after house2) = .ok (n, s1) ∧ joinSegments 8 1 n s1 = .ok s2 ∧
    (∀ d : HE, d.1 ∈ (after house2).sid.live → s2.next d = (after house2).next d) ∧ s2.vec 1 = (0, 5) ∧
    (after house2).vec 1 = (0, 10) := by
  obtain ⟨n, s1, s2, h1, h2⟩ := splitJoinB_ok (s := after house2) (e := 1) (mid := 8) (by decide +kernel)
  have k := split_join (after_reach house2) (e := 1) (mid := 8) (by decide +kernel) (by decide +kernel) (by decide +kernel)
    h1 h2
  have k' := split_join_stale_vector (after_reach house2) (e := 1) (mid := 8) (by decide +kernel) (by decide +kernel)
    (by decide +kernel) h1 h2 (by decide +kernel)
  refine ⟨n, s1, s2, h1, h2, fun d hd => (k.2.2.1 d hd).1, ?_, by decide +kernel⟩
  rw [k.2.2.2.2.2.2.2.2.2.2.2.2.2.2.2]
  decide +kernel

/-- The numbers of points, polygons, segments and wires. -/
example : verts (after house) = 8 ∧ (after house).qid.live.length = 3 ∧ (after house).sid.live.length = 8 ∧
    (after house).wid.live.length = 5 := by decide +kernel

example := euler_count (after_reach house)
example := free_points (after_reach house2)

/-- Point 8 is free in polygon 0. -/
example : (after house2).ppoly 8 = some 0 ∧ (after house2).fpts 0 = [8] := by decide +kernel

example := wires_exact_partial house_good.1

/-- The boundary of the triangle with the split side. -/
example : (wireAll (after house) 2).toOption = some [(4, false), (0, true), (6, true), (1, true)] := by decide +kernel

/-- A square with one side in the opposite direction. -/
def mixed : List (Op ℚ) :=
  [.addPoint (0, 0) 0, .addPoint (10, 0) 0, .addPoint (10, 10) 0, .addPoint (0, 10) 0,
    .newSegment 0 1, .newSegment 2 3, .newSegment 3 0, .newSegment 2 1]

/-- After the join of opposite segments both wires start at a side of the other one. -/
example : ∃ s', joinSegments 1 0 3 (after mixed) = .ok s' ∧ s'.wseg 1 = some (0, false) ∧ s'.wire (0, false) ≠ some 1 := by
  have h : ((joinSegments 1 0 3 (after mixed)).toOption).isSome = true := by decide +kernel
  cases hs : joinSegments 1 0 3 (after mixed) with
  | error e => rw [hs] at h; cases h
  | ok s' =>
    have hm := after_good (l := mixed) (by decide +kernel)
    have := join_opposite_wrong_side hm.1 (mid := 1) (e0 := 0) (e1 := 3) (w := 1) (v := false)
      (joinableB_ok (by decide +kernel)) (u := true) (by decide +kernel) (by decide +kernel) (by decide +kernel)
      (by decide +kernel) (by decide) (by decide +kernel) hs
    exact ⟨s', rfl, this⟩

/-- No call of `join_segments`, points moved exist. -/
def plainB (s : St ℚ) (o : Op ℚ) : Bool :=
  validB s o && match o with
  | .joinSegments _ _ _ => false
  | .move p _ => decide (p ∈ s.pid.live)
  | _ => true

theorem tested_plain {l : List (Op ℚ)} : ∀ {s s' : St ℚ},
    ReachBy demo (fun s o => (∀ p d, o = .move p d → p ∈ s.pid.live) ∧ ∀ mid e0 e1, o ≠ .joinSegments mid e0 e1) s →
    tested plainB l s = some s' →
    ReachBy demo (fun s o => (∀ p d, o = .move p d → p ∈ s.pid.live) ∧ ∀ mid e0 e1, o ≠ .joinSegments mid e0 e1) s' := by
  induction l with
  | nil => intro s s' h hs; exact Option.some.inj hs ▸ h
  | cons o l ih =>
    intro s s' h hs
    simp only [tested] at hs
    split at hs
    · next ht =>
      unfold plainB at ht
      rw [Bool.and_eq_true] at ht
      split at hs
      · next s1 h1 =>
        refine ih (.step h (validB_ok ht.1) ⟨?_, ?_⟩ h1) hs
        · rintro p d rfl
          simpa using ht.2
        · rintro mid e0 e1 rfl
          simp at ht
      · cases hs
    · cases hs

/-- A corner of the square is moved: the vectors of its three segments follow. -/
example : ∃ s, tested plainB (house ++ [.move 2 (1, 2)]) init = some s ∧
    (∀ e ∈ s.sid.live, s.vec e = ((s.xy (s.vtx (e, true))).1 - (s.xy (s.vtx (e, false))).1,
      (s.xy (s.vtx (e, true))).2 - (s.xy (s.vtx (e, false))).2)) := by
  have h : (tested plainB (house ++ [.move 2 (1, 2)]) init).isSome = true := by decide +kernel
  obtain ⟨s, hs⟩ := Option.isSome_iff_exists.1 h
  exact ⟨s, hs, vectors_exact_partial (tested_plain .init hs)⟩

example : ((after (house ++ [.move 2 (1, 2)])).vec 1, (after (house ++ [.move 2 (1, 2)])).vec 2,
    (after (house ++ [.move 2 (1, 2)])).vec 4, (after (house ++ [.move 2 (1, 2)])).vec 3) =
    ((1, 12), (-11, -2), (11, 12), (0, -10)) := by decide +kernel

example : ∃ s', joinSegments 6 0 6 (after house) = .ok s' ∧ s'.vec 0 = (5, 0) ∧ ¬ VecOk s' := by
  have h : ((joinSegments 6 0 6 (after house)).toOption).isSome = true := by decide +kernel
  cases hs : joinSegments 6 0 6 (after house) with
  | error e => rw [hs] at h; cases h
  | ok s' =>
    have hv : VecOk (after house) := by
      have h : (tested plainB house init).isSome = true := by decide +kernel
      obtain ⟨s, hs⟩ := Option.isSome_iff_exists.1 h
      have h2 : tested validB house init = some s := by
        have : ∀ (l : List (Op ℚ)) s s', tested plainB l s = some s' → tested validB l s = some s' := by
          intro l
          induction l with
          | nil => intro s s' h; exact h
          | cons o l ih =>
            intro s s' h
            simp only [tested] at h ⊢
            split at h
            · next ht =>
              unfold plainB at ht
              rw [Bool.and_eq_true] at ht
              rw [if_pos ht.1]
              split at h
              · exact ih _ _ h
              · cases h
            · cases h
        exact this _ _ _ hs
      unfold after
      rw [h2]
      exact vectors_exact_partial (tested_plain .init hs)
    have := join_stale_vector (after_reach house) hv (mid := 6) (e0 := 0) (e1 := 6) (u := false)
      (joinableB_ok (by decide +kernel)) (by decide +kernel) (by decide +kernel) hs
    exact ⟨s', rfl, this.1.trans (by decide +kernel), this.2⟩

example := clockwise_partial demo_ok house_good.2

/-- Angles at the corner 0: the diagonal between the two sides. -/
example : (dirAng demo (after house) (0, false), dirAng demo (after house) (4, false), dirAng demo (after house) (3, true)) =
    (0, 1 / 2, 1) ∧ (after house).next (3, true) = some (4, true) ∧ (after house).next (4, false) = some (0, true) ∧
    (after house).next (0, false) = some (3, false) := by decide +kernel

/-- The vector `(1, 2)` is in the corner between the side to the point 3 and the diagonal. -/
example : ∃ i, insertVector demo (after house) 0 (1, 2) = .ok (some i) ∧ i = ((3, true), (4, true), some 3) ∧
    InGap (AtPoint (after house) i.1) (dirAng demo (after house)) i.1 (flip i.2.1) (demo.ang (1, 2)) := by
  have h : (insertVector demo (after house) 0 (1, 2)).toOption = some (some ((3, true), (4, true), some 3)) := by
    decide +kernel
  cases hs : insertVector demo (after house) 0 (1, 2) with
  | error e => rw [hs] at h; cases h
  | ok o =>
    rw [hs] at h
    obtain rfl := Option.some.inj h
    have hd : ∀ d : HE, d.1 ∈ (after house).sid.live → (after house).vtx d = 0 →
        dirAng demo (after house) d ≠ demo.ang (1, 2) := by
      have hb : ((after house).sid.live.all fun e => [false, true].all fun v =>
        decide ((after house).vtx (e, v) ≠ 0) || decide (dirAng demo (after house) (e, v) ≠ demo.ang (1, 2))) = true := by
        decide +kernel
      rintro ⟨e, v⟩ he hv
      have := List.all_eq_true.1 (List.all_eq_true.1 hb e he) v (by cases v <;> simp)
      simp only [Bool.or_eq_true, decide_eq_true_eq] at this
      exact this.resolve_left (fun hh => hh hv)
    exact ⟨_, rfl, rfl, (insertVector_corner demo_ok house_good.2 (by decide +kernel) hs hd).2.2.2.2⟩

example := insertVector_total demo_ok (after_reach house) (p := 0) (by decide +kernel) (v := (1, 2)) (by decide +kernel)

/-! ### Nesting -/

theorem inside_leaf {s : St ℚ} {w x : Id} (h : s.childs w = []) (hx : Inside s w x) : x = w := by
  rcases Relation.ReflTransGen.cases_head hx with h1 | ⟨c, h1, _⟩
  · exact h1.symm
  · rw [h] at h1; cases h1

/-- Wires 1 in 0 and 2 in 1. -/
theorem nest_demo : ∃ s : St ℚ, NestReach s ∧ s.parent 2 = some 1 ∧ s.parent 1 = some 0 ∧ s.childs 0 = [1] ∧
    (childWires s 4 [] 0).toOption.map Prod.fst = some [0, 1, 2] := by
  have h0 : NestReach (newWireObj (newWireObj (init : St ℚ)).2).2 := .new (.new .init)
  obtain ⟨s1, h1⟩ := setParent_total (x := 0) h0.forest (w := 1) (by decide +kernel) (by decide)
  have h1' := NestReach.set (x := 0) h0 (by decide +kernel) (by decide) (by decide +kernel)
    (fun hh => absurd (inside_leaf (by decide +kernel) hh) (by decide)) h1
  have hs1 : s1 = ((setParent 1 (some 0) (newWireObj (newWireObj (init : St ℚ)).2).2).toOption).getD init := by rw [h1]; rfl
  clear h1 h0
  subst hs1
  obtain ⟨s2, h2⟩ := setParent_total (x := 1) h1'.forest (w := 2) (by decide +kernel) (by decide)
  have h2' := NestReach.set (x := 1) h1' (by decide +kernel) (by decide) (by decide +kernel)
    (fun hh => absurd (inside_leaf (by decide +kernel) hh) (by decide)) h2
  have hs2 : s2 = ((setParent 2 (some 1) (((setParent 1 (some 0) (newWireObj (newWireObj (init : St ℚ)).2).2).toOption).getD
    init)).toOption).getD init := by rw [h2]; rfl
  clear h2 h1'
  subst hs2
  exact ⟨_, h2', by decide +kernel, by decide +kernel, by decide +kernel, by decide +kernel⟩

/-- The polygons inside the polygon 0 and inside one triangle of the square. -/
example : (getChilds (after house) 9 0).toOption = some [0, 0, 1, 2] ∧ (getChilds (after house) 9 1).toOption = some [1, 1] := by
  decide +kernel

/-! ### Defects -/

/-- A triangle with a segment inside that is connected to the corner; the connection is deleted again. -/
def bridge : List (Op ℚ) :=
  [.addPoint (0, 0) 0, .addPoint (10, 0) 0, .addPoint (0, 10) 0, .newSegment 0 1, .newSegment 1 2, .newSegment 2 0,
    .addPoint (1, 1) 1, .addPoint (2, 1) 1, .newSegment 3 4, .newSegment 0 3, .deleteSegment 4]

/-- Nesting of wires is not kept by `delete_segment` (decomp.py:521-524): the wire of the segment inside becomes its own
parent and child, is not found from the root any more, and `child_wires` fails on it. -/
theorem delete_bridge_self_parent : ∃ s : St ℚ, SoundReach demo s ∧ ReachBy demo (Proper demo) s ∧ 3 ∈ s.wid.live ∧
    s.parent 3 = some 3 ∧ s.childs 3 = [3] ∧ (childWires s 9 [] 0).toOption.map Prod.fst = some [0, 1, 2] ∧
    (childWires s 9 [] 3).toOption = none ∧ ¬ Forest s := by
  have hg := after_good (l := bridge) (by decide +kernel)
  refine ⟨after bridge, hg.1, hg.2, by decide +kernel, by decide +kernel, by decide +kernel, by decide +kernel,
    by decide +kernel, ?_⟩
  intro hF
  obtain ⟨r, hr⟩ := hF.rank
  have := hr 3 (by decide +kernel) 3 (by decide +kernel)
  omega

/-- After that the segment inside can not be deleted: `KeyError` in `_rm_wire` (decomp.py:377). -/
theorem delete_after_bridge_fails : ∃ s : St ℚ, SoundReach demo s ∧ 3 ∈ s.sid.live ∧
    deleteSegment demo 3 s = .error .keyError := by
  have hg := after_good (l := bridge) (by decide +kernel)
  refine ⟨after bridge, hg.1, by decide +kernel, ?_⟩
  have h : (match deleteSegment demo 3 (after bridge) with
      | .error .keyError => true
      | _ => false) = true := by decide +kernel
  split at h
  · next h1 => exact h1
  · cases h

/-- A triangle with two more triangles inside, the inner two connected by three segments. -/
def onion : List (Op ℚ) :=
  [.addPoint (0, 0) 0, .addPoint (40, 0) 0, .addPoint (0, 40) 0, .newSegment 0 1, .newSegment 1 2, .newSegment 2 0,
    .addPoint (2, 2) 1, .addPoint (20, 2) 1, .addPoint (2, 20) 1, .newSegment 3 4, .newSegment 4 5, .newSegment 5 3,
    .addPoint (5, 5) 2, .addPoint (10, 5) 2, .addPoint (5, 10) 2, .newSegment 6 7, .newSegment 7 8, .newSegment 8 6,
    .newSegment 3 6, .newSegment 4 7, .newSegment 5 8]

/-- `new_segment` and `delete_segment` of a connection change the nesting: the wire of the innermost triangle gets out of
the wire 3 around it (decomp.py:518-524). -/
theorem delete_bridge_moves_wire :
    (tested goodB (onion ++ [.newSegment 0 3, .deleteSegment 12]) init).isSome = true ∧
    (after onion).parent 6 = some 3 ∧ (after (onion ++ [.newSegment 0 3, .deleteSegment 12])).parent 6 = some 1 ∧
    containsWire demo (after (onion ++ [.newSegment 0 3, .deleteSegment 12])) 3 6 = .ok true := by
  refine ⟨by decide +kernel, by decide +kernel, by decide +kernel, ?_⟩
  have h : (containsWire demo (after (onion ++ [.newSegment 0 3, .deleteSegment 12])) 3 6).toOption = some true := by
    decide +kernel
  cases hc : containsWire demo (after (onion ++ [.newSegment 0 3, .deleteSegment 12])) 3 6 with
  | error e => rw [hc] at h; cases h
  | ok b => rw [hc] at h; exact congrArg Except.ok (Option.some.inj h)

/-- When the outer triangle is deleted, the parent of that wire is a wire that does not exist. -/
theorem delete_leaves_dead_parent : ∃ s : St ℚ, SoundReach demo s ∧ ReachBy demo (Proper demo) s ∧ 6 ∈ s.wid.live ∧
    s.parent 6 = some 1 ∧ 1 ∉ s.wid.live := by
  have hg := after_good (l := onion ++ [.newSegment 0 3, .deleteSegment 12, .deleteSegment 0, .deleteSegment 1,
    .deleteSegment 2]) (by decide +kernel)
  exact ⟨_, hg.1, hg.2, by decide +kernel, by decide +kernel, by decide +kernel⟩

end Verif.Decomp
