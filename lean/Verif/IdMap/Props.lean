import Verif.IdMap.Lemmas
/-! Property theorems about `IdMap` (C09, C10). -/
namespace Verif.IdMap

variable {O : Type} [DecidableEq O]

/-! ### C09: ids are unique, dense and never collide -/

/-- After any contract-respecting calls on a fresh map, no call raises, and: looking up an id gives an object exactly if
that object is in the map with this id; every object in the map has an id and different objects different ids; all ids
are at least 0 and below the largest number of objects ever in the map at one time. -/
theorem ids_unique_dense (ops : List (Op O)) (l : List O) (hl : live [] ops = some l) :
    ∃ s, run init ops = .ok s ∧
      (∀ i o, s.tbl i = some o ↔ o ∈ l ∧ s.idOf o = some i) ∧
      (∀ o ∈ l, ∃ i, s.idOf o = some i ∧ 0 ≤ i ∧ i < peak [] ops) ∧
      (∀ o ∈ l, ∀ p ∈ l, s.idOf o = s.idOf p → o = p) := by
  have hpk : ∀ (ops : List (Op O)) (s s' : St O) (l l' : List O), Inv s l →
      live l ops = some l' → run s ops = .ok s' →
      s'.next + 1 ≤ max (s.next + 1) (peak l ops) := by
    intro ops
    induction ops with
    | nil => intro s s' l l' _ _ hr; simp only [run, Except.ok.injEq] at hr; subst hr; omega
    | cons op os ih =>
      intro s s' l l' h hl hr
      rw [live_cons] at hl
      simp only [Option.bind_eq_some_iff] at hl
      obtain ⟨l1, h1, h2⟩ := hl
      obtain ⟨s1, a1, a2⟩ := inv_step s l l1 op h h1
      have hr' : run s1 os = .ok s' := by simpa [run, a1] using hr
      have := ih s1 s' l1 l' a2 h2 hr'
      have hlen : ∀ (os : List (Op O)) (l : List O), l.length ≤ peak l os := by
        intro os l; cases os with
        | nil => simp [peak]
        | cons o os => cases o <;> simp only [peak] <;> omega
      have hpk1 := hlen os l1
      cases op with
      | append o =>
        simp only [live] at h1
        split at h1
        · simp at h1
        · simp only [Option.some.injEq] at h1
          subst h1
          simp only [step, Except.ok.injEq] at a1
          subst a1
          simp only [peak]
          have hc := a2.count
          have hc0 := h.count
          cases hf : s.free with
          | nil =>
            simp only [append, getNewId, hf] at this hc
            simp only [List.length_cons, hf, List.length_nil] at hc hpk1 hc0
            omega
          | cons i rest =>
            simp only [append, getNewId, hf] at this
            omega
      | remove o =>
        simp only [live] at h1
        split at h1
        · rename_i ho
          simp only [Option.some.injEq] at h1
          subst h1
          obtain ⟨i, _, _, e1, _⟩ := inv_remove s l o h ho
          simp only [step, e1, Except.ok.injEq] at a1
          subst a1
          simp only [peak]
          simp only at this
          omega
        · simp at h1
  obtain ⟨s, h1, h2⟩ := inv_run ops init [] l inv_init hl
  have hp := hpk ops init s [] l inv_init hl h1
  refine ⟨s, h1, h2.tbl, ?_, ?_⟩
  · intro o ho
    obtain ⟨i, hi⟩ := h2.has o ho
    have ht := (h2.tbl i o).2 ⟨ho, hi⟩
    have := (h2.range i).1 (Or.inl (by simp [ht]))
    refine ⟨i, hi, this.1, ?_⟩
    simp only [init] at hp
    omega
  · intro o ho p hp e
    obtain ⟨i, hi⟩ := h2.has o ho
    have a := (h2.tbl i o).2 ⟨ho, hi⟩
    have b := (h2.tbl i p).2 ⟨hp, by rw [← e, hi]⟩
    rw [a] at b
    exact Option.some.inj b

/-- An append never overwrites: every object that was in the map keeps its id and its place. -/
theorem append_keeps_others (ops : List (Op O)) (l : List O) (hl : live [] ops = some l) (o : O) :
    ∃ s i, run init ops = .ok s ∧ s.tbl i = none ∧ (append o s).idOf o = some i ∧ (append o s).tbl i = some o ∧
      ∀ k, k ≠ i → (append o s).tbl k = s.tbl k := by
  obtain ⟨s, h1, h2⟩ := inv_run ops init [] l inv_init hl
  cases hf : s.free with
  | nil =>
    refine ⟨s, s.next + 1, h1, ?_, by simp [append, getNewId, hf], by simp [append, getNewId, hf],
      fun k hk => by simp [append, getNewId, hf, hk]⟩
    cases hx : s.tbl (s.next + 1) with
    | none => rfl
    | some p =>
      have := (h2.range (s.next + 1)).1 (Or.inl (by simp [hx]))
      omega
  | cons i rest =>
    exact ⟨s, i, h1, h2.disj i (by simp [hf]), by simp [append, getNewId, hf], by simp [append, getNewId, hf],
      fun k hk => by simp [append, getNewId, hf, hk]⟩

/-- Outside the contract ids can clash: removing an object twice, with another one appended in between, removes the
other object. -/
theorem double_remove_removes_other :
    ∃ s s' : St Nat, run init [.append 7, .remove 7, .append 8] = .ok s ∧ s.tbl 0 = some 8 ∧
      remove 7 s = .ok s' ∧ s'.tbl 0 = none :=
  ⟨_, _, rfl, rfl, rfl, rfl⟩

/-! ### C10: recycled ids -/

/-- Removing an object and appending another one right after gives the new one the removed one's id. -/
theorem remove_append_same_id (ops : List (Op O)) (l : List O) (hl : live [] ops = some l) (o p : O) (ho : o ∈ l) :
    ∃ s s', run init ops = .ok s ∧ remove o s = .ok s' ∧ (append p s').idOf p = s.idOf o ∧ s.idOf o ≠ none := by
  obtain ⟨s, h1, h2⟩ := inv_run ops init [] l inv_init hl
  obtain ⟨i, a1, _, a3, _⟩ := inv_remove s l o h2 ho
  exact ⟨s, _, h1, a3, by simp [append, getNewId, a1], by simp [a1]⟩

/-- Undoing any contract-respecting calls one by one in reverse order restores the table, and doing them again gives the
table it was - so every object gets the id it had before. -/
theorem undo_redo_keeps_ids (ops1 ops2 : List (Op O)) (l1 l2 : List O) (h1 : live [] ops1 = some l1)
    (h2 : live l1 ops2 = some l2) :
    ∃ s1 s2 s3 s4, run init ops1 = .ok s1 ∧ run s1 ops2 = .ok s2 ∧
      run s2 (ops2.reverse.map Op.inv) = .ok s3 ∧ run s3 ops2 = .ok s4 ∧ s3.tbl = s1.tbl ∧ s4.tbl = s2.tbl := by
  obtain ⟨s1, a1, a2⟩ := inv_run ops1 init [] l1 inv_init h1
  obtain ⟨s2, b1, b2⟩ := inv_run ops2 s1 l1 l2 a2 h2
  obtain ⟨s3, c1, c2, c3⟩ := undo_same ops2 s1 s2 l1 l2 a2 h2 b1
  obtain ⟨s4, d1, _, _, d4⟩ := same_run ops2 s1 s3 s2 l1 l2 a2 c2 ⟨c3.tbl.symm, fun k => (c3.fut k).symm⟩ h2 b1
  exact ⟨s1, s2, s3, s4, a1, b1, c1, d1, c3.tbl, d4.tbl.symm⟩

/-! ### Non-vacuity -/

example : live ([] : List Nat) [.append 5, .append 6, .remove 5, .append 7, .append 5, .remove 6] = some [5, 7] := by
  decide
example : peak ([] : List Nat) [.append 5, .append 6, .remove 5, .append 7, .append 5, .remove 6] = 3 := by decide
/-- undo/redo of a mixed sequence from a non-empty map -/
example : live ([] : List Nat) [.append 5, .append 6] = some [6, 5] ∧
    live [6, 5] [.remove 5, .append 7, .append 5] = some [5, 7, 6] := by decide

end Verif.IdMap
