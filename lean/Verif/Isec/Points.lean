import Verif.Isec.Newton
/-! Property theorems about `SurfacePoint` (C58) and the patch lists made from such points (C109). -/
namespace Verif.Isec
open Verif.Spline

set_option linter.unusedSectionVars false
variable {K : Type} [Field K] [LinearOrder K] [IsStrictOrderedRing K]

/-- A quadratic basis on `[0, 1]` without repeated inner knots. -/
structure UnitBasis (B : Basis K) : Prop where
  valid : B.Valid
  deg : B.degree = 2
  lo : B.lo = 0
  hi : B.hi = 1
  simple : ∀ i, 2 ≤ i → i < B.size → B.k i < B.k (i + 1)

/-- closed knot interval `i` of a quadratic basis contains `x` -/
def Holds (B : Basis K) (i : Nat) (x : K) : Prop := i < B.nIntervals ∧ B.k (i + 2) ≤ x ∧ x ≤ B.k (i + 3)

theorem UnitBasis.strict {B : Basis K} (h : UnitBasis B) {a b : Nat} (hab : a < b) (hb : b ≤ B.nIntervals) :
    B.k (a + 2) < B.k (b + 2) := by
  have e1 := h.valid.nInt_eq
  rw [h.deg] at e1
  induction b with
  | zero => omega
  | succ b ih =>
    have s := h.simple (b + 2) (by omega) (by omega)
    rcases Nat.lt_or_ge a b with hh | hh
    · exact lt_trans (ih hh (by omega)) s
    · have : a = b := by omega
      subst this
      exact s

theorem ti_eq {B : Basis K} {i : Nat} (h : i + 3 < B.knots.length) : ti B i = .ok (B.k (i + 2), B.k (i + 3)) := by
  unfold ti Basis.k
  have e : (B.knots.drop (i + 2)).take 2 = [B.knots[i + 2], B.knots[i + 3]] := by
    rw [List.drop_eq_getElem_cons (by omega), List.drop_eq_getElem_cons (by omega)]
    rfl
  rw [e]
  simp only [List.getD_eq_getElem?_getD]
  rw [List.getElem?_eq_getElem (by omega), List.getElem?_eq_getElem (by omega)]
  rfl

/-- the indices of one direction that `extend_patches` combines -/
def ext1 (i flag : Int) (bnd : Bool) : List Int := [i] ++ if bnd = false ∧ flag ≠ 0 then [i + flag] else []

theorem mem_extendPatches (i j a b f g : Int) (c d : Bool) :
    (a, b) ∈ extendPatches (i, j) (f, g) (c, d) ↔ a ∈ ext1 i f c ∧ b ∈ ext1 j g d := by
  unfold extendPatches ext1
  by_cases h1 : c = false ∧ f ≠ 0 <;> by_cases h2 : d = false ∧ g ≠ 0 <;>
    simp only [h1, h2, and_self, and_true, true_and, if_true, if_false, ne_eq, not_false_eq_true, List.append_nil,
      List.cons_append, List.nil_append, List.mem_cons, List.not_mem_nil, or_false, Prod.mk.injEq] <;> tauto

theorem nodup_extendPatches (i j f g : Int) (c d : Bool) : (extendPatches (i, j) (f, g) (c, d)).Nodup := by
  unfold extendPatches
  by_cases h1 : c = false ∧ f ≠ 0 <;> by_cases h2 : d = false ∧ g ≠ 0 <;>
    simp only [h1, h2, and_self, and_true, true_and, if_true, if_false, ne_eq, not_false_eq_true, List.append_nil,
      List.cons_append, List.nil_append] <;> simp <;> omega

theorem ext1_spec {B : Basis K} (h : UnitBasis B) {i : Nat} {x : K} (hx : Holds B i x) (a : Int) :
    a ∈ ext1 i (ifaceFlag (B.k (i + 2), B.k (i + 3)) x) (bndFlag x) ↔ ∃ n : Nat, a = n ∧ Holds B n x := by
  obtain ⟨hi, h1, h2⟩ := hx
  have e1 := h.valid.nInt_eq
  have e2 := h.valid.size_eq
  rw [h.deg] at e1 e2
  have k0 : B.k (0 + 2) = 0 := by rw [h.valid.k_start (by rw [h.deg]), h.lo]
  have kn : B.k (B.nIntervals + 2) = 1 := by rw [h.valid.k_stop (by omega) (by omega), h.hi]
  -- the neighbours of i
  have near : ∀ n, Holds B n x → n = i ∨ (n + 1 = i ∧ x = B.k (i + 2)) ∨ (n = i + 1 ∧ x = B.k (i + 3)) := by
    rintro n ⟨n0, n1, n2⟩
    rcases Nat.lt_trichotomy n i with hn | hn | hn
    · have hle : B.k (i + 2) ≤ B.k (n + 3) := le_trans h1 n2
      have hn' : n + 1 = i := by
        by_contra hc
        exact absurd hle (not_le.2 (by
          have := h.strict (a := n + 1) (b := i) (by omega) (by omega)
          simpa [Nat.add_assoc] using this))
      subst hn'
      exact Or.inr (Or.inl ⟨rfl, le_antisymm n2 h1⟩)
    · exact Or.inl hn
    · have hle : B.k (n + 2) ≤ B.k (i + 3) := le_trans n1 h2
      have hn' : n = i + 1 := by
        by_contra hc
        exact absurd hle (not_le.2 (by
          have := h.strict (a := i + 1) (b := n) (by omega) (by omega)
          simpa [Nat.add_assoc] using this))
      subst hn'
      exact Or.inr (Or.inr ⟨rfl, le_antisymm h2 n1⟩)
  have hlt : B.k (i + 2) < B.k (i + 3) := by
    have := h.strict (a := i) (b := i + 1) (by omega) (by omega)
    simpa [Nat.add_assoc] using this
  unfold ext1 ifaceFlag bndFlag
  simp only [abs_eq_zero, sub_eq_zero]
  by_cases hb : x = 0 ∨ x = 1
  · simp only [hb, decide_true, Bool.true_eq_false, false_and, if_false, List.append_nil, List.mem_singleton]
    constructor
    · rintro rfl
      exact ⟨i, rfl, hi, h1, h2⟩
    · rintro ⟨n, rfl, hn⟩
      rcases near n hn with h | ⟨hn1, hn2⟩ | ⟨hn1, hn2⟩
      · rw [h]
      · exfalso
        have a1 : (0 : K) < x := by
          rw [hn2, ← k0]; exact h.strict (by omega) (by omega)
        have a2 : x < 1 := by rw [hn2, ← kn]; exact h.strict (by omega) (by omega)
        rcases hb with hb | hb
        · exact a1.ne' hb
        · exact a2.ne hb
      · exfalso
        have hi1 : i + 1 < B.nIntervals := by rw [← hn1]; exact hn.1
        have a1 : (0 : K) < x := by
          rw [hn2, ← k0]; exact h.strict (a := 0) (b := i + 1) (by omega) (by omega)
        have a2 : x < 1 := by
          rw [hn2, ← kn]; exact h.strict (a := i + 1) (by omega) (by omega)
        rcases hb with hb | hb
        · exact a1.ne' hb
        · exact a2.ne hb
  · simp only [hb, decide_false, true_and]
    by_cases hl : B.k (i + 2) = x
    · have hi0 : 0 < i := by
        by_contra hc
        have : i = 0 := by omega
        subst this
        exact hb (Or.inl (by rw [← hl, k0]))
      simp only [hl, if_true, ne_eq, Int.reduceNeg, neg_eq_zero, one_ne_zero, not_false_eq_true, List.cons_append,
        List.nil_append, List.mem_cons, List.not_mem_nil, or_false]
      constructor
      · rintro (rfl | rfl)
        · exact ⟨i, rfl, hi, h1, h2⟩
        · refine ⟨i - 1, by omega, by omega, ?_, ?_⟩
          · rw [← hl]
            exact (h.strict (by omega) (by omega)).le
          · rw [show i - 1 + 3 = i + 2 by omega, hl]
      · rintro ⟨n, rfl, hn⟩
        rcases near n hn with h | ⟨hn1, _⟩ | ⟨_, hn2⟩
        · left; rw [h]
        · right; omega
        · exact absurd (hl.trans hn2) hlt.ne
    · by_cases hr : B.k (i + 3) = x
      · have hi1 : i + 1 < B.nIntervals := by
          by_contra hc
          have : i + 3 = B.nIntervals + 2 := by omega
          exact hb (Or.inr (by rw [← hr, this, kn]))
        simp only [hl, hr, if_true, if_false, ne_eq, one_ne_zero, not_false_eq_true, List.cons_append,
          List.nil_append, List.mem_cons, List.not_mem_nil, or_false]
        constructor
        · rintro (rfl | rfl)
          · exact ⟨i, rfl, hi, h1, h2⟩
          · refine ⟨i + 1, by omega, hi1, ?_, ?_⟩
            · rw [show i + 1 + 2 = i + 3 by omega, hr]
            · rw [← hr]
              have := (h.strict (a := i + 1) (b := i + 2) (by omega) (by omega)).le
              simpa [Nat.add_assoc] using this
        · rintro ⟨n, rfl, hn⟩
          rcases near n hn with h | ⟨_, hn2⟩ | ⟨hn1, _⟩
          · left; rw [h]
          · exact absurd hn2.symm hl
          · right; omega
      · simp only [hl, hr, if_false, ne_eq, not_true_eq_false, List.append_nil, List.mem_singleton]
        constructor
        · rintro rfl
          exact ⟨i, rfl, hi, h1, h2⟩
        · rintro ⟨n, rfl, hn⟩
          rcases near n hn with h | ⟨_, hn2⟩ | ⟨_, hn2⟩
          · rw [h]
          · exact absurd hn2.symm hl
          · exact absurd hn2.symm hr

/-- What the constructor sets, for indices in range. -/
theorem SurfPoint.init_eq {S : Surface K} (hu : S.ub.Valid) (hv : S.vb.Valid) (du : S.ub.degree = 2) (dv : S.vb.degree = 2)
    {iu iv : Nat} (hiu : iu < S.ub.nIntervals) (hiv : iv < S.vb.nIntervals) (u v : K) :
    SurfPoint.init S iu iv (u, v) = .ok
      { iuv := extendPatches (iu, iv) (ifaceFlag (S.ub.k (iu + 2), S.ub.k (iu + 3)) u,
          ifaceFlag (S.vb.k (iv + 2), S.vb.k (iv + 3)) v) (bndFlag u, bndFlag v),
        uv := (u, v),
        iface := (ifaceFlag (S.ub.k (iu + 2), S.ub.k (iu + 3)) u, ifaceFlag (S.vb.k (iv + 2), S.vb.k (iv + 3)) v),
        bnd := (bndFlag u, bndFlag v), surfBnd := bndFlag u || bndFlag v } := by
  have e1 := hu.size_eq
  have e2 := hu.nInt_eq
  have e3 := hv.size_eq
  have e4 := hv.nInt_eq
  rw [du] at e1 e2
  rw [dv] at e3 e4
  unfold SurfPoint.init
  rw [ti_eq (by omega), ti_eq (by omega)]
  rfl

/-- C58. On a quadratic surface over the unit square without repeated inner knots, a point of patch `iu, iv` lists exactly
the patches whose closed parameter rectangle holds it, each once and with valid indices; `patch_id` is the set of their
ids; and the boundary flag is set exactly on the edges of the unit square. -/
theorem surface_point_patches {S : Surface K} (hu : UnitBasis S.ub) (hv : UnitBasis S.vb) {iu iv : Nat} {u v : K}
    (h1 : Holds S.ub iu u) (h2 : Holds S.vb iv v) :
    ∃ p, SurfPoint.init S iu iv (u, v) = .ok p ∧ p.uv = (u, v) ∧ p.iuv.Nodup ∧
      (∀ a b, (a, b) ∈ p.iuv ↔ ∃ i j : Nat, a = i ∧ b = j ∧ Holds S.ub i u ∧ Holds S.vb j v) ∧
      (∀ z, z ∈ p.patchId S ↔ ∃ i j : Nat, z = (S.pos2id i j : Nat) ∧ Holds S.ub i u ∧ Holds S.vb j v) ∧
      (p.surfBnd = true ↔ u = 0 ∨ u = 1 ∨ v = 0 ∨ v = 1) := by
  refine ⟨_, SurfPoint.init_eq hu.valid hv.valid hu.deg hv.deg h1.1 h2.1 u v, rfl, nodup_extendPatches _ _ _ _ _ _, ?_, ?_, ?_⟩
  · intro a b
    simp only
    rw [mem_extendPatches, ext1_spec hu h1, ext1_spec hv h2]
    constructor
    · rintro ⟨⟨i, rfl, hi⟩, ⟨j, rfl, hj⟩⟩
      exact ⟨i, j, rfl, rfl, hi, hj⟩
    · rintro ⟨i, j, rfl, rfl, hi, hj⟩
      exact ⟨⟨i, rfl, hi⟩, ⟨j, rfl, hj⟩⟩
  · intro z
    unfold SurfPoint.patchId
    simp only [List.mem_map, Prod.exists]
    constructor
    · rintro ⟨a, b, hab, rfl⟩
      rw [mem_extendPatches, ext1_spec hu h1, ext1_spec hv h2] at hab
      obtain ⟨⟨i, rfl, hi⟩, ⟨j, rfl, hj⟩⟩ := hab
      exact ⟨i, j, by simp [Surface.pos2id], hi, hj⟩
    · rintro ⟨i, j, rfl, hi, hj⟩
      refine ⟨i, j, ?_, by simp [Surface.pos2id]⟩
      rw [mem_extendPatches, ext1_spec hu h1, ext1_spec hv h2]
      exact ⟨⟨i, rfl, hi⟩, ⟨j, rfl, hj⟩⟩
  · simp [bndFlag, or_assoc]

/-- C58 fails on other domains: on a surface whose `u` domain does not end at 0 or 1, a point on the upper edge lists a
patch that does not exist. -/
theorem surface_point_out_of_range {S : Surface K} (hu : S.ub.Valid) (hv : S.vb.Valid) (du : S.ub.degree = 2)
    (dv : S.vb.degree = 2) (h0 : S.ub.hi ≠ 0) (h1 : S.ub.hi ≠ 1) {iu iv : Nat} (hiu : iu + 1 = S.ub.nIntervals)
    (hne : S.ub.k (iu + 2) < S.ub.hi) (hiv : iv < S.vb.nIntervals) (v : K) :
    ∃ p, SurfPoint.init S iu iv (S.ub.hi, v) = .ok p ∧ ((S.ub.nIntervals : Int), (iv : Int)) ∈ p.iuv ∧
      p.bnd.1 = false := by
  refine ⟨_, SurfPoint.init_eq hu hv du dv (by omega) hiv _ v, ?_, ?_⟩
  · simp only
    rw [mem_extendPatches]
    have e1 := hu.size_eq
    have e2 := hu.nInt_eq
    rw [du] at e1 e2
    have e : S.ub.k (iu + 3) = S.ub.hi := hu.k_stop (by omega) (by omega)
    constructor
    · have hb : bndFlag S.ub.hi = false := by simp [bndFlag, h0, h1]
      have hf : ifaceFlag (S.ub.k (iu + 2), S.ub.k (iu + 3)) S.ub.hi = 1 := by
        simp only [ifaceFlag, abs_eq_zero, sub_eq_zero]
        rw [if_neg hne.ne, if_pos e]
      rw [hb, hf]
      simp only [ext1, ← hiu]
      simp
    · simp [ext1]
  · simp [bndFlag, h0, h1]

/-- C58 fails on other domains: at an inner knot with the value 1 the neighbour patch is left out, because the point
counts as a boundary point. -/
theorem surface_point_misses_neighbour {S : Surface K} (hu : S.ub.Valid) (hv : S.vb.Valid) (du : S.ub.degree = 2)
    (dv : S.vb.degree = 2) {iu iv : Nat} (hiu : iu + 1 < S.ub.nIntervals) (hk : S.ub.k (iu + 3) = 1)
    (hiv : iv < S.vb.nIntervals) (v : K) :
    Holds S.ub (iu + 1) 1 ∧ ∃ p, SurfPoint.init S iu iv (1, v) = .ok p ∧ p.surfBnd = true ∧
      ∀ b, ((iu + 1 : Int), b) ∉ p.iuv := by
  have e1 := hu.size_eq
  have e2 := hu.nInt_eq
  rw [du] at e1 e2
  refine ⟨⟨hiu, ?_, ?_⟩, _, SurfPoint.init_eq hu hv du dv (by omega) hiv _ v, by simp [bndFlag], ?_⟩
  · rw [show iu + 1 + 2 = iu + 3 by omega, hk]
  · rw [← hk]; exact k_mono _ hu.sorted (by omega) (by omega)
  · intro b
    simp only
    rw [mem_extendPatches]
    simp [ext1, bndFlag]

/-- C58 fails with repeated inner knots: at a double knot the patch behind the empty one holds the point but is not
listed. -/
theorem surface_point_double_knot {S : Surface K} (hu : S.ub.Valid) (hv : S.vb.Valid) (du : S.ub.degree = 2)
    (dv : S.vb.degree = 2) {iu iv : Nat} (hiu : iu + 2 < S.ub.nIntervals) (hk : S.ub.k (iu + 3) = S.ub.k (iu + 4))
    (hiv : iv < S.vb.nIntervals) (v : K) :
    Holds S.ub (iu + 2) (S.ub.k (iu + 3)) ∧ ∃ p, SurfPoint.init S iu iv (S.ub.k (iu + 3), v) = .ok p ∧
      ∀ b, ((iu + 2 : Int), b) ∉ p.iuv := by
  have e1 := hu.size_eq
  have e2 := hu.nInt_eq
  rw [du] at e1 e2
  refine ⟨⟨hiu, ?_, ?_⟩, _, SurfPoint.init_eq hu hv du dv (by omega) hiv _ v, ?_⟩
  · rw [hk]
  · exact k_mono _ hu.sorted (by omega) (by omega)
  · intro b
    simp only
    rw [mem_extendPatches]
    rintro ⟨h, _⟩
    revert h
    simp only [ext1, ifaceFlag]
    split <;> split <;> (try split) <;> simp <;> omega

/-! ### C109 -/

theorem pyIdx_nat {α : Type} (l : List α) (n : Nat) (h : n < l.length) : pyIdx l n = some n := by
  unfold pyIdx
  rw [if_pos (by omega), if_pos (by omega)]
  simp

theorem addToPatches_ok (pos : Nat) : ∀ (ids : List Int) (pp : List (List Nat)),
    (∀ z ∈ ids, ∃ n : Nat, z = n ∧ n < pp.length) → ∃ qq, addToPatches pos pp ids = .ok qq ∧ qq.length = pp.length ∧
      ∀ n x, x ∈ qq.getD n [] ↔ x ∈ pp.getD n [] ∨ (x = pos ∧ n < pp.length ∧ (n : Int) ∈ ids)
  | [], pp, _ => ⟨pp, rfl, rfl, by simp⟩
  | z :: zs, pp, h => by
    obtain ⟨n, rfl, hn⟩ := h z (by simp)
    have hstep : addToPatches pos pp ((n : Int) :: zs) =
        addToPatches pos (pp.modify n fun s => if pos ∈ s then s else s ++ [pos]) zs := by
      rw [addToPatches, pyIdx_nat pp n hn]
    obtain ⟨qq, hq, hl, hm⟩ := addToPatches_ok pos zs (pp.modify n fun s => if pos ∈ s then s else s ++ [pos])
      (by intro z hz; obtain ⟨m, e, hm⟩ := h z (by simp [hz]); exact ⟨m, e, by simpa using hm⟩)
    refine ⟨qq, by rw [hstep, hq], by simpa using hl, ?_⟩
    intro m x
    rw [hm m x]
    have hmod : x ∈ (pp.modify n fun s => if pos ∈ s then s else s ++ [pos]).getD m [] ↔
        x ∈ pp.getD m [] ∨ (x = pos ∧ m = n) := by
      simp only [List.getD_eq_getElem?_getD, List.getElem?_modify, Option.map_eq_map]
      by_cases hmn : n = m
      · subst hmn
        rw [List.getElem?_eq_getElem hn]
        simp only [if_true, Option.map_some, Option.getD_some, and_true]
        split
        · rename_i hp
          constructor
          · exact Or.inl
          · rintro (h | rfl)
            · exact h
            · exact hp
        · simp
      · simp only [hmn, if_false]
        cases pp[m]? <;> simp <;> intro _ h <;> exact absurd h.symm hmn
    rw [hmod]
    simp only [List.length_modify, List.mem_cons, Nat.cast_inj]
    constructor
    · rintro ((c | ⟨c, rfl⟩) | ⟨c, h1, h2⟩)
      · exact Or.inl c
      · exact Or.inr ⟨c, hn, Or.inl rfl⟩
      · exact Or.inr ⟨c, h1, Or.inr h2⟩
    · rintro (c | ⟨c, h1, h2 | h2⟩)
      · exact Or.inl (Or.inl c)
      · exact Or.inl (Or.inr ⟨c, h2⟩)
      · exact Or.inr ⟨c, h1, h2⟩

theorem patchPointLoop_ok : ∀ (xs : List (List Int × Bool)) (pos : Nat) (pp : List (List Nat)) (bp : List Nat),
    (∀ x ∈ xs, ∀ z ∈ x.1, ∃ n : Nat, z = n ∧ n < pp.length) → ∃ qq bq, patchPointLoop xs pos pp bp = .ok (qq, bq) ∧
      qq.length = pp.length ∧
      (∀ (n k : Nat), k ∈ qq.getD n [] ↔ k ∈ pp.getD n [] ∨
        ∃ x, pos ≤ k ∧ xs[k - pos]? = some x ∧ n < pp.length ∧ (n : Int) ∈ x.1) ∧
      (∀ k : Nat, k ∈ bq ↔ k ∈ bp ∨ ∃ x, pos ≤ k ∧ xs[k - pos]? = some x ∧ x.2 = true)
  | [], pos, pp, bp, _ => ⟨pp, bp, rfl, rfl, by simp, by simp⟩
  | x :: xs, pos, pp, bp, h => by
    obtain ⟨rr, h1, h2, h3⟩ := addToPatches_ok pos x.1 pp (h x (by simp))
    obtain ⟨qq, bq, g1, g2, g3, g4⟩ := patchPointLoop_ok xs (pos + 1) rr (if x.2 then bp ++ [pos] else bp)
      (by intro y hy z hz; rw [h2]; exact h y (by simp [hy]) z hz)
    refine ⟨qq, bq, ?_, by rw [g2, h2], ?_, ?_⟩
    · rw [patchPointLoop, h1]
      simp only [bind, Except.bind]
      exact g1
    · intro n k
      rw [g3, h3, h2]
      constructor
      · rintro ((h | ⟨rfl, hn, hz⟩) | ⟨y, hy1, hy2, hy3⟩)
        · exact Or.inl h
        · exact Or.inr ⟨x, le_refl _, by simp, hn, hz⟩
        · refine Or.inr ⟨y, by omega, ?_, hy3⟩
          rw [show k - pos = (k - (pos + 1)) + 1 by omega]
          simpa using hy2
      · rintro (h | ⟨y, hy1, hy2, hy3⟩)
        · exact Or.inl (Or.inl h)
        · rcases Nat.eq_or_lt_of_le hy1 with e | e
          · subst e
            simp at hy2
            subst hy2
            exact Or.inl (Or.inr ⟨rfl, hy3⟩)
          · refine Or.inr ⟨y, by omega, ?_, hy3⟩
            rw [show k - pos = (k - (pos + 1)) + 1 by omega] at hy2
            simpa using hy2
    · intro k
      rw [g4]
      have hb : k ∈ (if x.2 = true then bp ++ [pos] else bp) ↔ k ∈ bp ∨ (k = pos ∧ x.2 = true) := by
        split <;> simp [*]
      rw [hb]
      constructor
      · rintro ((h | ⟨rfl, hx⟩) | ⟨y, hy1, hy2, hy3⟩)
        · exact Or.inl h
        · exact Or.inr ⟨x, le_refl _, by simp, hx⟩
        · refine Or.inr ⟨y, by omega, ?_, hy3⟩
          rw [show k - pos = (k - (pos + 1)) + 1 by omega]
          simpa using hy2
      · rintro (h | ⟨y, hy1, hy2, hy3⟩)
        · exact Or.inl (Or.inl h)
        · rcases Nat.eq_or_lt_of_le hy1 with e | e
          · subst e
            simp at hy2
            subst hy2
            exact Or.inl (Or.inr ⟨rfl, hy3⟩)
          · refine Or.inr ⟨y, by omega, ?_, hy3⟩
            rw [show k - pos = (k - (pos + 1)) + 1 by omega] at hy2
            simpa using hy2

/-- C109. For a non-empty list of points whose patch ids are in range, `make_patch_point_list` returns one set per patch;
set `n` holds exactly the positions of the points that list patch `n`; and the boundary list holds exactly the positions
of the points whose first surface point is on the boundary. -/
theorem patch_point_list_correct (S : Surface K) (pts : List (IsecPoint K)) (second : Bool) (hne : pts ≠ [])
    (hids : ∀ p ∈ pts, ∀ z ∈ (if second then p.b else p.a).patchId S, ∃ n : Nat, z = n ∧
      n < S.ub.nIntervals * S.vb.nIntervals) :
    ∃ pp bp, makePatchPointList S pts second = .ok (pp, bp) ∧ pp.length = S.ub.nIntervals * S.vb.nIntervals ∧
      (∀ n < S.ub.nIntervals * S.vb.nIntervals, ∀ k : Nat, k ∈ pp.getD n [] ↔
        ∃ p, pts[k]? = some p ∧ (n : Int) ∈ (if second then p.b else p.a).patchId S) ∧
      (∀ k : Nat, k ∈ bp ↔ ∃ p, pts[k]? = some p ∧ p.a.surfBnd = true) := by
  unfold makePatchPointList
  rw [if_neg (by simpa using hne)]
  obtain ⟨pp, bp, h1, h2, h3, h4⟩ := patchPointLoop_ok
    (pts.map fun p => ((if second then p.b else p.a).patchId S, p.a.surfBnd)) 0
    (List.replicate (S.ub.nIntervals * S.vb.nIntervals) []) [] (by
      intro x hx z hz
      obtain ⟨p, hp, rfl⟩ := List.mem_map.1 hx
      simpa using hids p hp z hz)
  refine ⟨pp, bp, h1, by simpa using h2, ?_, ?_⟩
  · intro n hn k
    rw [h3]
    have : k ∉ (List.replicate (S.ub.nIntervals * S.vb.nIntervals) ([] : List Nat)).getD n [] := by
      rw [List.getD_eq_getElem?_getD, List.getElem?_replicate]
      split <;> simp
    simp only [this, false_or, List.length_replicate, hn, true_and, Nat.zero_le, Nat.sub_zero, List.getElem?_map,
      Option.map_eq_some_iff]
    constructor
    · rintro ⟨x, ⟨p, hp, rfl⟩, hz⟩
      exact ⟨p, hp, hz⟩
    · rintro ⟨p, hp, hz⟩
      exact ⟨_, ⟨p, hp, rfl⟩, hz⟩
  · intro k
    rw [h4]
    simp only [List.not_mem_nil, false_or, Nat.zero_le, true_and, Nat.sub_zero, List.getElem?_map, Option.map_eq_some_iff]
    constructor
    · rintro ⟨x, ⟨p, hp, rfl⟩, hz⟩
      exact ⟨p, hp, hz⟩
    · rintro ⟨p, hp, hz⟩
      exact ⟨_, ⟨p, hp, rfl⟩, hz⟩

/-- An empty list of points raises IndexError. -/
theorem patch_point_list_empty (S : Surface K) (second : Bool) :
    makePatchPointList S [] second = .error .indexError := rfl

/-- C109 is refuted for `_unconnected_patch_points`: it never reports a point, whatever the lists hold. -/
theorem unconnected_always_empty (pp : List (List Nat)) (ids : List Int) (l : List Nat)
    (h : unconnectedPatchPoints pp ids = .ok l) : l = [] := by
  unfold unconnectedPatchPoints at h
  simp only [bind, Except.bind] at h
  split at h
  · simp at h
  · cases h; rfl

theorem inside_inner (connected : List Bool) : ∀ (s acc : List Nat), (∀ k ∈ s, k < connected.length) →
    s.foldlM (insidePos connected) acc = .ok (acc ++ s.filter fun k => connected[k]? == some false)
  | [], acc, _ => by simp; rfl
  | k :: s, acc, h => by
    have hk := h k (by simp)
    rw [List.foldlM_cons, insidePos, List.getElem?_eq_getElem hk]
    simp only [bind, Except.bind]
    rw [inside_inner connected s _ (fun k hk => h k (by simp [hk]))]
    rw [List.filter_cons, List.getElem?_eq_getElem hk]
    cases connected[k] <;> simp

/-- C109. What `_get_inside_points` returns: the unconnected points of every patch, patch after patch. A point is listed
once for every patch that holds it. -/
theorem inside_points_value (connected : List Bool) (pp : List (List Nat)) (ids : List Nat)
    (h1 : ∀ i ∈ ids, i < pp.length) (h2 : ∀ s ∈ pp, ∀ k ∈ s, k < connected.length) :
    getInsidePoints connected pp (ids.map Int.ofNat) =
      .ok (ids.flatMap fun i => (pp.getD i []).filter fun k => connected[k]? == some false) := by
  unfold getInsidePoints
  suffices h : ∀ (ids : List Nat) (acc : List Nat), (∀ i ∈ ids, i < pp.length) →
      (ids.map Int.ofNat).foldlM (insidePatch connected pp) acc =
      .ok (acc ++ ids.flatMap fun i => (pp.getD i []).filter fun k => connected[k]? == some false) by
    simpa using h ids [] h1
  intro ids
  induction ids with
  | nil => intro acc _; simp; rfl
  | cons i ids ih =>
    intro acc h
    have hi := h i (by simp)
    rw [List.map_cons, List.foldlM_cons, insidePatch]
    have e : pyIdx pp (Int.ofNat i) = some i := pyIdx_nat pp i hi
    rw [e]
    simp only
    rw [inside_inner connected _ acc]
    · simp only [bind, Except.bind]
      rw [ih _ (fun i hi => h i (by simp [hi]))]
      simp
    · have hm : pp.getD i [] ∈ pp := by
        rw [List.getD_eq_getElem?_getD, List.getElem?_eq_getElem hi]
        exact List.getElem_mem hi
      exact h2 _ hm

/-- C109 is refuted for `_get_inside_points`: an unconnected point of two of the patches is listed twice. -/
theorem inside_points_twice (connected : List Bool) (pp : List (List Nat)) (i j k : Nat) (hi : i < pp.length)
    (hj : j < pp.length) (h2 : ∀ s ∈ pp, ∀ k ∈ s, k < connected.length) (ki : k ∈ pp.getD i []) (kj : k ∈ pp.getD j [])
    (hk : connected[k]? = some false) :
    ∃ l, getInsidePoints connected pp [(i : Int), (j : Int)] = .ok l ∧ ¬ l.Nodup := by
  refine ⟨_, inside_points_value connected pp [i, j] (by simp [hi, hj]) h2, ?_⟩
  simp only [List.flatMap_cons, List.flatMap_nil, List.append_nil]
  rw [List.nodup_append]
  rintro ⟨_, _, h⟩
  exact h k (by simp [ki, hk, -List.getD_eq_getElem?_getD]) k (by simp [kj, hk, -List.getD_eq_getElem?_getD]) rfl

end Verif.Isec
