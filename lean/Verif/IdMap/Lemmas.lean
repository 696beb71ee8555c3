import Verif.IdMap.Spec
/-! Helper lemmas for `IdMap`. -/
set_option linter.unusedSectionVars false
namespace Verif.IdMap

variable {O : Type} [DecidableEq O]

/-! ### Invariant -/

/-- Invariant relating a state to the list of live objects. -/
structure Inv (s : St O) (l : List O) : Prop where
  nodup : l.Nodup
  tbl : ∀ i o, s.tbl i = some o ↔ o ∈ l ∧ s.idOf o = some i
  has : ∀ o ∈ l, ∃ i, s.idOf o = some i
  freeNodup : s.free.Nodup
  range : ∀ i, (s.tbl i ≠ none ∨ i ∈ s.free) ↔ 0 ≤ i ∧ i ≤ s.next
  disj : ∀ i ∈ s.free, s.tbl i = none
  low : -1 ≤ s.next
  count : (l.length + s.free.length : Int) = s.next + 1

theorem inv_init : Inv (init : St O) [] := by
  refine ⟨List.nodup_nil, by simp [init], by simp, by simp [init], ?_, by simp [init], by simp [init], by simp [init]⟩
  intro i
  simp only [init, ne_eq, not_true_eq_false, List.not_mem_nil, or_self, false_iff]
  omega

theorem inv_append (s : St O) (l : List O) (o : O) (h : Inv s l) (ho : o ∉ l) : Inv (append o s) (o :: l) := by
  have hnew : ∀ i, (s.free = i :: s.free.tail ∨ (s.free = [] ∧ i = s.next + 1)) → s.tbl i = none := by
    intro i hi
    rcases hi with hi | ⟨_, rfl⟩
    · exact h.disj i (by rw [hi]; simp)
    · cases hx : s.tbl (s.next + 1) with
      | none => rfl
      | some p =>
        have := (h.range (s.next + 1)).1 (Or.inl (by simp [hx]))
        omega
  have aux : ∀ i, s.tbl i = none → ∀ k p,
      ((if k = i then some o else s.tbl k) = some p ↔
        p ∈ o :: l ∧ (if p = o then some i else s.idOf p) = some k) := by
    intro i hi k p
    by_cases hk : k = i
    · subst hk
      by_cases hp : p = o
      · subst hp; simp
      · have : ¬ (s.tbl k = some p) := by simp [hi]
        rw [h.tbl] at this
        simp only [if_true, Option.some.injEq, List.mem_cons, hp, false_or, if_false]
        constructor
        · intro e; exact absurd e.symm hp
        · intro e; exact absurd e this
    · by_cases hp : p = o
      · subst hp
        have : ¬ (s.tbl k = some p) := by rw [h.tbl]; simp [ho]
        simp [hk, this, Ne.symm hk]
      · simp [hk, hp, h.tbl]
  have has : ∀ i, ∀ p ∈ o :: l, ∃ j, (if p = o then some i else s.idOf p) = some j := by
    intro i p hp
    by_cases hpo : p = o
    · exact ⟨i, by simp [hpo]⟩
    · simp only [List.mem_cons, hpo, false_or] at hp
      simpa [hpo] using h.has p hp
  cases hf : s.free with
  | nil =>
    have hi := hnew (s.next + 1) (Or.inr ⟨hf, rfl⟩)
    simp only [append, getNewId, hf]
    refine ⟨List.nodup_cons.2 ⟨ho, h.nodup⟩, aux _ hi, has _, ?_, ?_, ?_, ?_, ?_⟩
    · simp
    · intro k
      have := h.range k
      rw [hf] at this
      have hl := h.low
      by_cases hk : k = s.next + 1
      · subst hk; simp; omega
      · simp only [hk, if_false, List.not_mem_nil, or_false] at this ⊢
        rw [this]; omega
    · simp
    · have := h.low; simp only; omega
    · have := h.count; rw [hf] at this
      simp only [hf, List.length_cons, List.length_nil] at *
      omega
  | cons i rest =>
    have hi := hnew i (Or.inl (by simp [hf]))
    have hnd := h.freeNodup
    rw [hf] at hnd
    simp only [append, getNewId, hf]
    refine ⟨List.nodup_cons.2 ⟨ho, h.nodup⟩, aux _ hi, has _, ?_, ?_, ?_, h.low, ?_⟩
    · simpa using (List.nodup_cons.1 hnd).2
    · intro k
      have := h.range k
      rw [hf] at this
      by_cases hk : k = i
      · subst hk
        simpa using this
      · simpa [hk] using this
    · intro k hk
      have hne : k ≠ i := fun e => (List.nodup_cons.1 hnd).1 (e ▸ hk)
      simp only [hne, if_false]
      exact h.disj k (by rw [hf]; exact List.mem_cons_of_mem _ hk)
    · have := h.count; rw [hf] at this
      simp only [List.length_cons] at *
      omega

theorem inv_remove (s : St O) (l : List O) (o : O) (h : Inv s l) (ho : o ∈ l) :
    ∃ i, s.idOf o = some i ∧ s.tbl i = some o ∧
      remove o s = .ok { s with tbl := fun k => if k = i then none else s.tbl k, free := i :: s.free } ∧
      Inv { s with tbl := fun k => if k = i then none else s.tbl k, free := i :: s.free } (l.erase o) := by
  obtain ⟨i, hi⟩ := h.has o ho
  have ht : s.tbl i = some o := (h.tbl i o).2 ⟨ho, hi⟩
  refine ⟨i, hi, ht, by simp [remove, hi, ht], ?_⟩
  have hnf : i ∉ s.free := fun hm => by simp [h.disj i hm] at ht
  refine ⟨h.nodup.erase o, ?_, ?_, List.nodup_cons.2 ⟨hnf, h.freeNodup⟩, ?_, ?_, h.low, ?_⟩
  · intro k p
    simp only [h.nodup.mem_erase_iff]
    by_cases hk : k = i
    · subst hk
      simp only [if_true]
      constructor
      · intro e; simp at e
      · rintro ⟨⟨hp, hp'⟩, e⟩
        have := (h.tbl k p).2 ⟨hp', e⟩
        rw [ht] at this
        exact absurd (Option.some.inj this).symm hp
    · simp only [hk, if_false, h.tbl]
      constructor
      · rintro ⟨hp, e⟩
        refine ⟨⟨?_, hp⟩, e⟩
        rintro rfl
        rw [hi] at e
        exact hk (Option.some.inj e).symm
      · rintro ⟨⟨_, hp⟩, e⟩; exact ⟨hp, e⟩
  · intro p hp
    exact h.has p (List.mem_of_mem_erase hp)
  · intro k
    have := h.range k
    by_cases hk : k = i
    · subst hk
      simp only [if_true, ne_eq, not_true_eq_false, List.mem_cons, true_or, or_true, true_iff]
      exact this.1 (Or.inl (by simp [ht]))
    · simpa [hk] using this
  · intro k hk
    by_cases hki : k = i
    · simp [hki]
    · simp only [hki, if_false]
      simp only [List.mem_cons, hki, false_or] at hk
      exact h.disj k hk
  · have := h.count
    have hl := List.length_erase_of_mem ho
    have hpos : 0 < l.length := List.length_pos_of_mem ho
    simp only [List.length_cons] at *
    omega

theorem inv_step (s : St O) (l l' : List O) (op : Op O) (h : Inv s l) (hl : live l [op] = some l') :
    ∃ s', step s op = .ok s' ∧ Inv s' l' := by
  cases op with
  | append o =>
    simp only [live] at hl
    split at hl
    · simp at hl
    · rename_i ho
      simp only [Option.some.injEq] at hl
      subst hl
      exact ⟨_, rfl, inv_append s l o h ho⟩
  | remove o =>
    simp only [live] at hl
    split at hl
    · rename_i ho
      simp only [Option.some.injEq] at hl
      subst hl
      obtain ⟨i, _, _, h1, h2⟩ := inv_remove s l o h ho
      exact ⟨_, h1, h2⟩
    · simp at hl

theorem live_cons (l : List O) (op : Op O) (os : List (Op O)) :
    live l (op :: os) = (live l [op]).bind fun l1 => live l1 os := by
  cases op <;> simp only [live] <;> split <;> simp

theorem inv_run (ops : List (Op O)) (s : St O) (l l' : List O) (h : Inv s l) (hl : live l ops = some l') :
    ∃ s', run s ops = .ok s' ∧ Inv s' l' := by
  induction ops generalizing s l with
  | nil => simp only [live, Option.some.injEq] at hl; subst hl; exact ⟨s, rfl, h⟩
  | cons op os ih =>
    rw [live_cons] at hl
    simp only [Option.bind_eq_some_iff] at hl
    obtain ⟨l1, h1, h2⟩ := hl
    obtain ⟨s1, a1, a2⟩ := inv_step s l l1 op h h1
    obtain ⟨s', b1, b2⟩ := ih s1 l1 a2 h2
    exact ⟨s', by simp [run, a1, b1], b2⟩

/-! ### Ids to come -/

/-- The id that the `k`-th append from now would give if nothing is removed. -/
def future (s : St O) (k : Nat) : Int :=
  if h : k < s.free.length then s.free[k] else s.next + 1 + (k - s.free.length : Nat)

theorem future_append (s : St O) (o : O) :
    (append o s).idOf o = some (future s 0) ∧ (∀ k, future (append o s) k = future s (k + 1)) ∧
      (append o s).tbl = fun k => if k = future s 0 then some o else s.tbl k := by
  cases hf : s.free with
  | nil =>
    refine ⟨by simp [append, getNewId, hf, future], ?_, ?_⟩
    · intro k; simp [append, getNewId, hf, future]; omega
    · simp [append, getNewId, hf, future]
  | cons i rest =>
    refine ⟨by simp [append, getNewId, hf, future], ?_, ?_⟩
    · intro k; simp [append, getNewId, hf, future]
    · simp [append, getNewId, hf, future]

theorem future_remove (s : St O) (i : Int) (t : Int → Option O) (k : Nat) :
    future { s with tbl := t, free := i :: s.free } 0 = i ∧
      future { s with tbl := t, free := i :: s.free } (k + 1) = future s k := by
  refine ⟨by simp [future], by simp [future]⟩

/-- Two states with the same table, the same ids of the live objects, and the same ids to come. -/
structure Same (l : List O) (s t : St O) : Prop where
  tbl : s.tbl = t.tbl
  fut : ∀ k, future s k = future t k

theorem same_step (s t s' : St O) (l l' : List O) (op : Op O) (hs : Inv s l) (ht : Inv t l) (h : Same l s t)
    (hl : live l [op] = some l') (h1 : step s op = .ok s') :
    ∃ t', step t op = .ok t' ∧ Inv s' l' ∧ Inv t' l' ∧ Same l' s' t' := by
  obtain ⟨_, e, hs'⟩ := inv_step s l l' op hs hl
  rw [h1] at e; simp only [Except.ok.injEq] at e; subst e
  obtain ⟨t', e', ht'⟩ := inv_step t l l' op ht hl
  refine ⟨t', e', hs', ht', ?_⟩
  cases op with
  | append o =>
    simp only [step, Except.ok.injEq] at h1 e'
    subst h1; subst e'
    obtain ⟨_, a2, a3⟩ := future_append s o
    obtain ⟨_, b2, b3⟩ := future_append t o
    exact ⟨by rw [a3, b3, h.tbl, h.fut 0], fun k => by rw [a2, b2, h.fut]⟩
  | remove o =>
    simp only [live] at hl
    split at hl
    · rename_i ho
      obtain ⟨i, a1, a2, a3, _⟩ := inv_remove s l o hs ho
      obtain ⟨j, b1, b2, b3, _⟩ := inv_remove t l o ht ho
      have hij : i = j := by
        rw [h.tbl] at a2
        have := ((ht.tbl i o).1 a2).2
        rw [b1] at this
        exact (Option.some.inj this).symm
      subst hij
      simp only [step, a3, b3, Except.ok.injEq] at h1 e'
      subst h1; subst e'
      refine ⟨by simp [h.tbl], fun k => ?_⟩
      cases k with
      | zero => rw [(future_remove s i _ 0).1, (future_remove t i _ 0).1]
      | succ k => rw [(future_remove s i _ k).2, (future_remove t i _ k).2, h.fut]
    · simp at hl

theorem same_run (ops : List (Op O)) (s t s' : St O) (l l' : List O) (hs : Inv s l) (ht : Inv t l) (h : Same l s t)
    (hl : live l ops = some l') (h1 : run s ops = .ok s') :
    ∃ t', run t ops = .ok t' ∧ Inv s' l' ∧ Inv t' l' ∧ Same l' s' t' := by
  induction ops generalizing s t l with
  | nil =>
    simp only [run, Except.ok.injEq, live, Option.some.injEq] at *
    subst h1; subst hl
    exact ⟨t, rfl, hs, ht, h⟩
  | cons op os ih =>
    rw [live_cons] at hl
    simp only [Option.bind_eq_some_iff] at hl
    obtain ⟨l1, c1, c2⟩ := hl
    obtain ⟨s1, a1, _⟩ := inv_step s l l1 op hs c1
    obtain ⟨t1, b1, b2, b3, b4⟩ := same_step s t s1 l l1 op hs ht h c1 a1
    simp only [run, a1] at h1
    obtain ⟨t', d1, d2⟩ := ih s1 t1 l1 b2 b3 b4 c2 h1
    exact ⟨t', by simp [run, b1, d1], d2⟩

/-- One call and its inverse give the same table and the same future ids back. -/
theorem step_inv_same (s s1 : St O) (l l1 : List O) (op : Op O) (hs : Inv s l) (hl : live l [op] = some l1)
    (h1 : step s op = .ok s1) :
    ∃ s2 l2, step s1 op.inv = .ok s2 ∧ (live l1 [op.inv] = some l2) ∧ Inv s2 l ∧ Same l s2 s := by
  cases op with
  | append o =>
    simp only [live] at hl
    split at hl
    · simp at hl
    · rename_i ho
      simp only [Option.some.injEq] at hl
      subst hl
      simp only [step, Except.ok.injEq] at h1
      subst h1
      have hi := inv_append s l o hs ho
      obtain ⟨i, a1, a2, a3, a4⟩ := inv_remove _ _ o hi (by simp)
      obtain ⟨f1, f2, f3⟩ := future_append s o
      rw [f1] at a1
      have e := Option.some.inj a1
      refine ⟨_, l, a3, by simp [live, Op.inv], by simpa using a4, ?_, ?_⟩
      · funext k
        simp only [f3]
        by_cases hk : k = i
        · subst hk
          simp only [if_true]
          cases hx : s.tbl k with
          | none => rfl
          | some p =>
            -- the new id was not in the table
            exfalso
            have hfree : s.tbl (future s 0) = none := by
              unfold future
              split
              · exact hs.disj _ (List.getElem_mem _)
              · cases hy : s.tbl (s.next + 1 + ((0 - s.free.length : Nat) : Int)) with
                | none => rfl
                | some q =>
                  have := (hs.range (s.next + 1 + ((0 - s.free.length : Nat) : Int))).1
                    (Or.inl (by rw [hy]; simp))
                  omega
            rw [e, hx] at hfree
            simp at hfree
        · simp [hk, e]
      · intro k
        cases k with
        | zero => rw [(future_remove _ i _ 0).1, e]
        | succ k => rw [(future_remove _ i _ k).2, f2]
  | remove o =>
    simp only [live] at hl
    split at hl
    · rename_i ho
      simp only [Option.some.injEq] at hl
      subst hl
      obtain ⟨i, a1, a2, a3, a4⟩ := inv_remove s l o hs ho
      simp only [step, a3, Except.ok.injEq] at h1
      subst h1
      have hno : o ∉ l.erase o := fun hm => (hs.nodup.mem_erase_iff.1 hm).1 rfl
      have hi := inv_append _ _ o a4 hno
      refine ⟨_, o :: l.erase o, rfl, by simp [live, Op.inv, hno], ?_, ?_, ?_⟩
      · have hperm : ∀ p, p ∈ o :: l.erase o ↔ p ∈ l := by
          intro p
          simp only [List.mem_cons, hs.nodup.mem_erase_iff]
          constructor
          · rintro (rfl | ⟨_, hp⟩)
            · exact ho
            · exact hp
          · intro hp
            by_cases hpo : p = o
            · exact Or.inl hpo
            · exact Or.inr ⟨hpo, hp⟩
        refine ⟨hs.nodup, fun k p => ?_, fun p hp => hi.has p ((hperm p).2 hp), hi.freeNodup, hi.range, hi.disj, hi.low,
          ?_⟩
        · rw [← hperm p]; exact hi.tbl k p
        · have := hi.count
          have hl := List.length_erase_of_mem ho
          have hpos : 0 < l.length := List.length_pos_of_mem ho
          simp only [List.length_cons] at this
          omega
      · funext k
        simp only [append, getNewId]
        by_cases hk : k = i
        · simp [hk, a2]
        · simp [hk]
      · intro k
        rw [(future_append _ o).2.1]
        exact (future_remove s i _ k).2
    · simp at hl

theorem run_append (a b : List (Op O)) (s s1 : St O) (h : run s a = .ok s1) : run s (a ++ b) = run s1 b := by
  induction a generalizing s with
  | nil => simp only [run, Except.ok.injEq] at h; subst h; rfl
  | cons o os ih =>
    simp only [run, List.cons_append] at h ⊢
    split at h
    · rename_i s' hs'
      exact ih s' h
    · simp at h

theorem live_append (a b : List (Op O)) (l l1 : List O) (h : live l a = some l1) :
    live l (a ++ b) = live l1 b := by
  induction a generalizing l with
  | nil => simp only [live, Option.some.injEq] at h; subst h; rfl
  | cons o os ih =>
    rw [List.cons_append, live_cons]
    rw [live_cons] at h
    simp only [Option.bind_eq_some_iff] at h
    obtain ⟨l2, h2, h3⟩ := h
    rw [h2]
    exact ih l2 h3

theorem undo_same (ops : List (Op O)) (s s1 : St O) (l l1 : List O) (hs : Inv s l) (hl : live l ops = some l1)
    (h1 : run s ops = .ok s1) :
    ∃ s2, run s1 (ops.reverse.map Op.inv) = .ok s2 ∧ Inv s2 l ∧ Same l s2 s := by
  induction ops generalizing s l with
  | nil =>
    simp only [run, Except.ok.injEq, live, Option.some.injEq] at h1 hl
    subst h1; subst hl
    exact ⟨s, rfl, hs, rfl, fun _ => rfl⟩
  | cons op os ih =>
    rw [live_cons] at hl
    simp only [Option.bind_eq_some_iff] at hl
    obtain ⟨la, c1, c2⟩ := hl
    obtain ⟨sa, a1, a2⟩ := inv_step s l la op hs c1
    simp only [run, a1] at h1
    obtain ⟨sb, b1, b2, b3⟩ := ih sa la a2 c2 h1
    obtain ⟨sc, lc, d1, d2, d3, d4⟩ := step_inv_same s sa l la op hs c1 a1
    obtain ⟨sd, e1, e2, e3, e4⟩ := same_step sa sb sc la lc op.inv a2 b2
      ⟨b3.tbl.symm, fun k => (b3.fut k).symm⟩ d2 d1
    refine ⟨sd, ?_, ?_, ?_⟩
    · simp only [List.reverse_cons, List.map_append, List.map_cons, List.map_nil]
      rw [run_append _ _ _ _ b1]
      simp [run, e1]
    · -- transfer the invariant from lc to l
      have hmem : ∀ p, p ∈ lc ↔ p ∈ l := by
        intro p
        cases op with
        | append o =>
          simp only [live] at c1
          split at c1
          · simp at c1
          · simp only [Option.some.injEq] at c1; subst c1
            simp [live, Op.inv] at d2
            rw [d2]
        | remove o =>
          simp only [live] at c1
          split at c1
          · rename_i ho
            simp only [Option.some.injEq] at c1; subst c1
            simp only [live, Op.inv] at d2
            split at d2
            · simp at d2
            · simp only [Option.some.injEq] at d2
              rw [← d2]
              simp only [List.mem_cons, hs.nodup.mem_erase_iff]
              constructor
              · rintro (rfl | ⟨_, hp⟩)
                · exact ho
                · exact hp
              · intro hp
                by_cases hpo : p = o
                · exact Or.inl hpo
                · exact Or.inr ⟨hpo, hp⟩
          · simp at c1
      refine ⟨hs.nodup, fun k p => by rw [← hmem p]; exact e3.tbl k p, fun p hp => e3.has p ((hmem p).2 hp),
        e3.freeNodup, e3.range, e3.disj, e3.low, ?_⟩
      have hlen : lc.length = l.length := by
        have n1 := e3.nodup
        have n2 := hs.nodup
        exact ((List.perm_ext_iff_of_nodup n1 n2).2 hmem).length_eq
      have := e3.count
      rw [hlen] at this
      exact this
    · exact ⟨e4.tbl.symm.trans d4.tbl, fun k => (e4.fut k).symm.trans (d4.fut k)⟩

end Verif.IdMap
