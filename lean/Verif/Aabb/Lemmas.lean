import Verif.Aabb.Spec
import Mathlib.Tactic.Linarith
import Mathlib.Tactic.Ring
/-! Helper lemmas for the box lookup. -/
set_option linter.unusedSectionVars false
namespace Verif.Aabb

variable {K : Type} [Field K] [LinearOrder K] [IsStrictOrderedRing K]

theorem mem_whereL {α : Type} (d : List α) (cond : α → Bool) (i : Nat) :
    i ∈ whereL d cond ↔ ∃ x, d[i]? = some x ∧ cond x = true := by
  simp only [whereL, List.mem_filter, List.mem_range]
  constructor
  · rintro ⟨h, h2⟩
    rw [List.getElem?_eq_getElem h] at h2
    exact ⟨d[i], List.getElem?_eq_getElem h, h2⟩
  · rintro ⟨x, h1, h2⟩
    obtain ⟨h, _⟩ := List.getElem?_eq_some_iff.1 h1
    exact ⟨h, by rw [h1]; exact h2⟩

theorem whereL_sorted {α : Type} (d : List α) (cond : α → Bool) : (whereL d cond).Pairwise (· < ·) :=
  List.Pairwise.filter _ List.pairwise_lt_range

theorem lmin_le_head (a : K) (l : List K) : lmin a l ≤ a := by
  unfold lmin
  induction l generalizing a with
  | nil => exact le_refl _
  | cons x xs ih => exact le_trans (ih (min a x)) (min_le_left _ _)

theorem lmin_le (a : K) (l : List K) : ∀ x ∈ a :: l, lmin a l ≤ x := by
  unfold lmin
  induction l generalizing a with
  | nil => intro x hx; simp at hx; simp [hx]
  | cons y ys ih =>
    intro x hx
    simp only [List.foldl_cons]
    simp only [List.mem_cons] at hx
    rcases hx with rfl | rfl | hx
    · exact le_trans (ih (min x y) _ (List.mem_cons_self ..)) (min_le_left _ _)
    · exact le_trans (ih (min a x) _ (List.mem_cons_self ..)) (min_le_right _ _)
    · exact ih (min a y) _ (by simp [hx])

theorem lmin_mem (a : K) (l : List K) : lmin a l ∈ a :: l := by
  unfold lmin
  induction l generalizing a with
  | nil => simp
  | cons y ys ih =>
    simp only [List.foldl_cons]
    have := ih (min a y)
    simp only [List.mem_cons] at this ⊢
    rcases this with h | h
    · rcases le_total a y with h' | h'
      · rw [h, min_eq_left h']; simp
      · rw [h, min_eq_right h']; simp
    · exact Or.inr (Or.inr h)

theorem le_lmax (a : K) (l : List K) : ∀ x ∈ a :: l, x ≤ lmax a l := by
  unfold lmax
  induction l generalizing a with
  | nil => intro x hx; simp at hx; simp [hx]
  | cons y ys ih =>
    intro x hx
    simp only [List.foldl_cons]
    simp only [List.mem_cons] at hx
    rcases hx with rfl | rfl | hx
    · exact le_trans (le_max_left _ _) (ih (max x y) _ (List.mem_cons_self ..))
    · exact le_trans (le_max_right _ _) (ih (max a x) _ (List.mem_cons_self ..))
    · exact ih (max a y) _ (by simp [hx])

theorem lmax_mem (a : K) (l : List K) : lmax a l ∈ a :: l := by
  unfold lmax
  induction l generalizing a with
  | nil => simp
  | cons y ys ih =>
    simp only [List.foldl_cons]
    have := ih (max a y)
    simp only [List.mem_cons] at this ⊢
    rcases this with h | h
    · rcases le_total a y with h' | h'
      · rw [h, max_eq_right h']; simp
      · rw [h, max_eq_left h']; simp
    · exact Or.inr (Or.inr h)

theorem grow_spec (inf : K) (id : Nat) (rows : List (Box K)) (h0 : 0 < rows.length) :
    id < (grow inf id rows).length ∧ rows.length ≤ (grow inf id rows).length ∧
      ∀ i, (grow inf id rows)[i]? = if i < rows.length then rows[i]? else
        if i < (grow inf id rows).length then some (infRow inf) else none := by
  fun_induction grow inf id rows with
  | case1 rows h ih =>
    have hl : 0 < (rows ++ List.replicate rows.length (infRow inf)).length := by simp; omega
    obtain ⟨a, b, c⟩ := ih hl
    refine ⟨a, ?_, ?_⟩
    · simp at b; omega
    · intro i
      rw [c i]
      by_cases h1 : i < rows.length
      · have : i < (rows ++ List.replicate rows.length (infRow inf)).length := by simp; omega
        rw [if_pos this, if_pos h1, List.getElem?_append_left h1]
      · rw [if_neg h1]
        by_cases h2 : i < (rows ++ List.replicate rows.length (infRow inf)).length
        · rw [if_pos h2, List.getElem?_append_right (by omega)]
          have h3 : i < (grow inf id (rows ++ List.replicate rows.length (infRow inf))).length := by omega
          rw [if_pos h3]
          simp at h2
          rw [List.getElem?_replicate, if_pos (by omega)]
        · rw [if_neg h2]
  | case2 rows h =>
    refine ⟨?_, le_refl _, ?_⟩
    · by_contra hc
      exact h ⟨by omega, h0⟩
    · intro i
      by_cases h1 : i < rows.length
      · rw [if_pos h1]
      · rw [if_neg h1, if_neg h1, List.getElem?_eq_none (by omega)]

/-- The table implements the map `m`. -/
structure Inv (s : Lookup K) (m : Nat → Option (Box K)) : Prop where
  pos : 0 < s.rows.length
  nle : s.nBoxes ≤ s.rows.length
  live : ∀ i b, m i = some b → s.rows[i]? = some b ∧ i < s.nBoxes
  dead : ∀ i, m i = none → ∀ b, s.rows[i]? = some b → b = infRow s.inf

theorem inv_new (inf rt2 : K) (n : Nat) (hn : 0 < n) : Inv (Lookup.new inf rt2 n) fun _ => none := by
  refine ⟨by simpa [Lookup.new], by simp [Lookup.new], by simp, ?_⟩
  intro i _ b hb
  simp only [Lookup.new, List.getElem?_replicate] at hb
  split at hb
  · simp at hb; exact hb.symm
  · simp at hb

theorem inv_add (s : Lookup K) (m : Nat → Option (Box K)) (j : Nat) (b : Box K) (h : Inv s m) :
    Inv (s.add j b) (specStep m (.add j b)) := by
  obtain ⟨g1, g2, g3⟩ := grow_spec s.inf j s.rows h.pos
  have hp := h.pos
  have hn := h.nle
  refine ⟨?_, ?_, ?_, ?_⟩
  · simp only [Lookup.add, List.length_set]; omega
  · simp only [Lookup.add, List.length_set]; omega
  · intro i c hc
    simp only [specStep] at hc
    simp only [Lookup.add]
    by_cases hij : i = j
    · subst hij
      simp only [if_true, Option.some.injEq] at hc
      subst hc
      refine ⟨by rw [List.getElem?_set_self g1], by omega⟩
    · simp only [hij, if_false] at hc
      obtain ⟨a1, a2⟩ := h.live i c hc
      refine ⟨?_, by omega⟩
      rw [List.getElem?_set_ne (fun e => hij e.symm), g3 i, if_pos (by omega), a1]
  · intro i hi c hc
    simp only [specStep] at hi
    simp only [Lookup.add] at hc ⊢
    by_cases hij : i = j
    · simp [hij] at hi
    · simp only [hij, if_false] at hi
      rw [List.getElem?_set_ne (fun e => hij e.symm), g3 i] at hc
      split at hc
      · exact h.dead i hi c hc
      · split at hc
        · simp at hc; exact hc.symm
        · simp at hc

theorem inv_rm (s : Lookup K) (m : Nat → Option (Box K)) (j : Nat) (h : Inv s m) :
    Inv (step s (.rm j)) (specStep m (.rm j)) := by
  simp only [step, Lookup.rm]
  by_cases hj : j < s.rows.length
  · simp only [hj, if_true]
    refine ⟨by simpa using h.pos, by simpa using h.nle, ?_, ?_⟩
    · intro i c hc
      simp only [specStep] at hc
      by_cases hij : i = j
      · simp [hij] at hc
      · simp only [hij, if_false] at hc
        obtain ⟨a1, a2⟩ := h.live i c hc
        exact ⟨by simp only [List.getElem?_set_ne (fun e => hij e.symm), a1], a2⟩
    · intro i hi c hc
      simp only [specStep] at hi
      simp only at hc
      by_cases hij : i = j
      · subst hij
        rw [List.getElem?_set_self hj] at hc
        simp at hc; exact hc.symm
      · simp only [hij, if_false] at hi
        rw [List.getElem?_set_ne (fun e => hij e.symm)] at hc
        exact h.dead i hi c hc
  · simp only [hj, if_false]
    refine ⟨h.pos, h.nle, ?_, ?_⟩
    · intro i c hc
      simp only [specStep] at hc
      by_cases hij : i = j
      · simp [hij] at hc
      · simp only [hij, if_false] at hc
        exact h.live i c hc
    · intro i hi c hc
      simp only [specStep] at hi
      by_cases hij : i = j
      · subst hij
        rw [List.getElem?_eq_none (by omega)] at hc
        simp at hc
      · simp only [hij, if_false] at hi
        exact h.dead i hi c hc

theorem inv_run' (ops : List (Op K)) (s : Lookup K) (m : Nat → Option (Box K)) (h : Inv s m) :
    Inv (run s ops) (ops.foldl specStep m) := by
  induction ops generalizing s m with
  | nil => exact h
  | cons o os ih =>
    simp only [run, List.foldl_cons]
    apply ih
    cases o with
    | add j b => exact inv_add s m j b h
    | rm j => exact inv_rm s m j h

theorem run_const (ops : List (Op K)) (s : Lookup K) : (run s ops).inf = s.inf ∧ (run s ops).rt2 = s.rt2 := by
  induction ops generalizing s with
  | nil => exact ⟨rfl, rfl⟩
  | cons o os ih =>
    simp only [run, List.foldl_cons]
    have := ih (step s o)
    simp only [run] at this
    rw [this.1, this.2]
    cases o with
    | add j b => exact ⟨rfl, rfl⟩
    | rm j =>
      simp only [step, Lookup.rm]
      by_cases hj : j < s.rows.length <;> simp [hj]

theorem inv_run (ops : List (Op K)) (inf rt2 : K) (n : Nat) (hn : 0 < n) :
    Inv (run (Lookup.new inf rt2 n) ops) (stored ops) := inv_run' ops _ _ (inv_new inf rt2 n hn)

/-! Geometry -/

theorem infDist_le (p q : Pt K) (b : Box K) (h : b.Has q) (t : K) (hx1 : q.x - p.x ≤ t) (hx2 : p.x - q.x ≤ t)
    (hy1 : q.y - p.y ≤ t) (hy2 : p.y - q.y ≤ t) : infDist p b ≤ t := by
  obtain ⟨h1, h2, h3, h4⟩ := h
  unfold infDist
  simp only [max_le_iff]
  exact ⟨⟨by linarith, by linarith⟩, ⟨by linarith, by linarith⟩⟩

theorem le_maxDist (p : Pt K) (b : Box K) :
    p.x - b.x0 ≤ maxDist p b ∧ b.x1 - p.x ≤ maxDist p b ∧ p.y - b.y0 ≤ maxDist p b ∧ b.y1 - p.y ≤ maxDist p b := by
  unfold maxDist
  simp

end Verif.Aabb

namespace Verif.Aabb

variable {K : Type} [Field K] [LinearOrder K] [IsStrictOrderedRing K]

theorem infDist_infRow (p : Pt K) (inf B : K) (hp : p.Within B) : inf - B ≤ infDist p (infRow inf) := by
  obtain ⟨h1, h2, h3, h4⟩ := hp
  unfold infDist infRow
  simp only [le_max_iff]
  left; left; linarith

theorem infDist_within (p : Pt K) (b : Box K) (B : K) (hp : p.Within B) (hb : b.Within B) : infDist p b ≤ 2 * B := by
  obtain ⟨h1, h2, h3, h4⟩ := hp
  obtain ⟨b1, b2, b3, b4, b5, b6, b7, b8⟩ := hb
  unfold infDist
  simp only [max_le_iff]
  exact ⟨⟨by linarith, by linarith⟩, ⟨by linarith, by linarith⟩⟩

theorem maxDist_within (p : Pt K) (b : Box K) (B : K) (hp : p.Within B) (hb : b.Within B) : maxDist p b ≤ 2 * B := by
  obtain ⟨h1, h2, h3, h4⟩ := hp
  obtain ⟨b1, b2, b3, b4, b5, b6, b7, b8⟩ := hb
  unfold maxDist
  simp only [max_le_iff]
  exact ⟨⟨by linarith, by linarith⟩, ⟨by linarith, by linarith⟩⟩

theorem mapM_except_ok {α β ε : Type} (l : List α) (f : α → Except ε β) (g : α → β)
    (h : ∀ a ∈ l, f a = .ok (g a)) : l.mapM f = .ok (l.map g) := by
  induction l with
  | nil => rfl
  | cons a as ih =>
    rw [List.mapM_cons, h a (by simp), ih fun b hb => h b (by simp [hb])]
    rfl

/-- What `closest` returns when something is stored: all ids nearer than `rt2` times the size `l` of a non-empty list of
stored boxes. -/
theorem closest_eq (s : Lookup K) (m : Nat → Option (Box K)) (h : Inv s m) (B : K) (hB : 3 * B < s.inf)
    (hv : ∀ i b, m i = some b → b.Within B) (p : Pt K) (hp : p.Within B) (i0 : Nat) (b0 : Box K)
    (h0 : m i0 = some b0) :
    ∃ j c l, m j = some c ∧ maxDist p c ≤ l ∧ (∃ j' c', m j' = some c' ∧ l = maxDist p c') ∧
      s.closest p = .ok (whereL (s.rows.map (infDist p)) fun x => decide (x < s.rt2 * l)) := by
  obtain ⟨hr0, hn0⟩ := h.live i0 b0 h0
  have hBpos : 0 ≤ B := by obtain ⟨h1, h2, _⟩ := hp; linarith
  have hlen : ¬ (s.rows.take s.nBoxes).length = 0 := by
    have := h.nle; simp [List.length_take]; constructor
    · omega
    · have := h.pos; intro e; simp [e] at this
  -- dead rows are far
  have hdead : ∀ i b, s.rows[i]? = some b → m i = none → infDist p b > 2 * B := by
    intro i b hb hm
    have := h.dead i hm b hb
    subst this
    have := infDist_infRow p s.inf B hp
    linarith
  have hnear : infDist p b0 ≤ 2 * B := infDist_within p b0 B hp (hv _ _ h0)
  have hlive : ∀ i b, s.rows[i]? = some b → infDist p b ≤ 2 * B → m i = some b := by
    intro i b hb hd
    cases hm : m i with
    | none => have := hdead i b hb hm; linarith
    | some c => have := (h.live i c hm).1; rw [hb] at this; exact this.symm
  have hboxes : ∀ i b, m i = some b → (s.rows.take s.nBoxes)[i]? = some b := by
    intro i b hb
    obtain ⟨a1, a2⟩ := h.live i b hb
    rw [List.getElem?_take, if_pos a2, a1]
  simp only [Lookup.closest, hlen, if_false]
  cases hd : s.rows.map (infDist p) with
  | nil =>
    exfalso
    have := h.pos
    have h3 : (s.rows.map (infDist p)).length = 0 := by rw [hd]; rfl
    simp at h3
    simp [h3] at this
  | cons d0 ds =>
    have hmin := lmin_le d0 ds
    have hmem := lmin_mem d0 ds
    rw [← hd] at hmin hmem
    have hdist0 : infDist p b0 ∈ s.rows.map (infDist p) :=
      List.mem_map_of_mem (List.mem_of_getElem? hr0)
    have hm2 : lmin d0 ds ≤ 2 * B := le_trans (hmin _ hdist0) hnear
    by_cases hpos : lmin d0 ds > 0
    · simp only [hpos, if_true]
      set i := (d0 :: ds).findIdx (fun x => decide (x = lmin d0 ds)) with hi
      have hil : i < (d0 :: ds).length :=
        List.findIdx_lt_length_of_exists ⟨lmin d0 ds, by rw [← hd]; exact hmem, by simp⟩
      have hiv : (d0 :: ds)[i] = lmin d0 ds := by
        have := List.findIdx_getElem (xs := d0 :: ds) (p := fun x => decide (x = lmin d0 ds)) (w := hil)
        simpa using this
      have hix : (s.rows.map (infDist p))[i]? = some (lmin d0 ds) := by
        rw [hd, List.getElem?_eq_getElem hil, hiv]
      rw [List.getElem?_map] at hix
      simp only [Option.map_eq_some_iff] at hix
      obtain ⟨c, hc1, hc2⟩ := hix
      have hcl := hlive i c hc1 (by rw [hc2]; exact hm2)
      have hcb := hboxes i c hcl
      have hdrop : ((s.rows.take s.nBoxes).drop i).take 1 = [c] := by
        obtain ⟨hlt, he⟩ := List.getElem?_eq_some_iff.1 hcb
        rw [List.drop_eq_getElem_cons hlt, he]
        rfl
      rw [hdrop]
      refine ⟨i, c, maxDist p c, hcl, le_refl _, ⟨i, c, hcl, rfl⟩, ?_⟩
      simp [lmax]
    · simp only [hpos, if_false]
      have hw : ∀ i ∈ whereL (d0 :: ds) (fun x => decide (x ≤ 0)), ∃ b, m i = some b := by
        intro i hi
        rw [mem_whereL] at hi
        obtain ⟨x, hx1, hx2⟩ := hi
        rw [← hd, List.getElem?_map] at hx1
        simp only [Option.map_eq_some_iff] at hx1
        obtain ⟨b, hb1, hb2⟩ := hx1
        simp only [decide_eq_true_eq] at hx2
        exact ⟨b, hlive i b hb1 (by rw [hb2]; linarith)⟩
      have hmap : (whereL (d0 :: ds) (fun x => decide (x ≤ 0))).mapM (fetchRow (s.rows.take s.nBoxes)) =
          .ok ((whereL (d0 :: ds) (fun x => decide (x ≤ 0))).map fun i => (m i).getD b0) := by
        apply mapM_except_ok
        intro i hi
        obtain ⟨b, hb⟩ := hw i hi
        simp [fetchRow, hboxes i b hb, hb]
      rw [hmap]
      have hne : whereL (d0 :: ds) (fun x => decide (x ≤ 0)) ≠ [] := by
        obtain ⟨k, hk⟩ := List.mem_iff_getElem?.1 hmem
        rw [hd] at hk
        have : k ∈ whereL (d0 :: ds) (fun x => decide (x ≤ 0)) := by
          rw [mem_whereL]
          exact ⟨_, hk, by simpa using not_lt.1 hpos⟩
        intro e
        rw [e] at this
        simp at this
      cases hwl : whereL (d0 :: ds) (fun x => decide (x ≤ 0)) with
      | nil => exact absurd hwl hne
      | cons k ks =>
        rw [hwl] at hw
        simp only [List.map_cons]
        obtain ⟨c, hc⟩ := hw k (by simp)
        refine ⟨k, c, _, hc, ?_, ?_, rfl⟩
        · rw [hc]
          exact le_lmax _ _ _ (by simp)
        · have := lmax_mem (maxDist p ((m k).getD b0)) ((ks.map fun i => (m i).getD b0).map (maxDist p))
          rcases List.mem_cons.1 this with e | e
          · exact ⟨k, c, hc, by rw [e, hc]; rfl⟩
          · rw [List.map_map, List.mem_map] at e
            obtain ⟨k', hk', e⟩ := e
            obtain ⟨c', hc'⟩ := hw k' (by simp [hk'])
            refine ⟨k', c', hc', ?_⟩
            rw [List.map_map, ← e, Function.comp, hc']
            rfl

theorem sq_le {a b : K} (hb : 0 ≤ b) (h : a * a ≤ b * b) : a ≤ b := by
  by_contra hc
  have : b < a := not_le.1 hc
  nlinarith

end Verif.Aabb
