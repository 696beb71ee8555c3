import Verif.Undo.Lemmas
/-! Property theorems about the undo system (C01 - C08). -/
namespace Verif.Undo

variable {D E : Type}

/-! ### C01: undo and redo walk the exact history of document states -/

/-- After any program of calls, groups, undos, redos, clears and savepoints whose user code has correct undo code, the
document is the one the history says, and the stack offers exactly the undos and redos of the history, with their texts;
neither undo nor redo can raise. -/
theorem undo_history (d0 : D) (ops : List (Op D E)) (h : Hist D) (hwb : WellBehaved ops)
    (hs : Hist.run ⟨[], d0, []⟩ ops = some h) :
    let w := run ⟨d0, .init⟩ ops
    w.doc = h.now ∧
      w.stk.undocount = h.past.length ∧
      (w.stk.canundo = true ↔ h.past ≠ []) ∧
      (w.stk.canredo = true ↔ h.future ≠ []) ∧
      w.stk.undotext = h.past.head?.map Prod.snd ∧
      w.stk.redotext = h.future.head?.map Prod.snd ∧
      (step w .undo).2 = none ∧ (step w .redo).2 = none := by
  have hR := rel_run ops _ _ h (rel_init d0) hwb hs
  intro w
  have hp := hR.past.length
  have hf := hR.fut.length
  refine ⟨hR.doc, hp, ?_, ?_, hR.past.head, hR.fut.head, ?_, ?_⟩
  · simp only [Stack.canundo, decide_eq_true_eq]
    change (run ⟨d0, .init⟩ ops).stk.undos.length > 0 ↔ _
    rw [hp, gt_iff_lt, List.length_pos_iff]
  · simp only [Stack.canredo, decide_eq_true_eq]
    change (run ⟨d0, .init⟩ ops).stk.redos.length > 0 ↔ _
    rw [hf, gt_iff_lt, List.length_pos_iff]
  · change (undo (run ⟨d0, .init⟩ ops)).2 = none
    have h1 := hR.past
    have h2 := hR.doc
    unfold undo
    split
    · rfl
    · rename_i it rest hu
      rw [hu] at h1
      cases hp : h.past with
      | nil => rw [hp] at h1; simp [PastOK] at h1
      | cons p ps =>
        rw [hp] at h1
        simp only [PastOK] at h1
        obtain ⟨it', a1, _⟩ := it.undo_of_done _ _ h1.1
        rw [h2, a1]
  · change (redo (run ⟨d0, .init⟩ ops)).2 = none
    have h1 := hR.fut
    have h2 := hR.doc
    unfold redo
    split
    · rfl
    · rename_i it rest hu
      rw [hu] at h1
      cases hp : h.future with
      | nil => rw [hp] at h1; simp [FutOK] at h1
      | cons p ps =>
        rw [hp] at h1
        simp only [FutOK] at h1
        obtain ⟨it', a1, _⟩ := it.do_of_undone _ _ h1.1
        rw [h2, a1]

/-- Undoing everything that was done since the last clear gives the starting document back. -/
theorem undo_all_restores (d0 : D) (ops : List (Op D E)) (h : Hist D) (hwb : WellBehaved ops)
    (hs : Hist.run ⟨[], d0, []⟩ ops = some h) (hc : ∀ o ∈ ops, o ≠ .clear) :
    (run ⟨d0, .init⟩ (ops ++ List.replicate h.past.length .undo)).doc = d0 := by
  -- the oldest state of the history never changes
  have oldest : ∀ (ops : List (Op D E)) (h h' : Hist D) (d0 : D),
      ((h.past.map Prod.fst).reverse ++ [h.now]).head? = some d0 → (∀ o ∈ ops, o ≠ .clear) →
      h.run ops = some h' → ((h'.past.map Prod.fst).reverse ++ [h'.now]).head? = some d0 := by
    intro ops
    induction ops with
    | nil => intro h h' d0 h1 _ h2; simp only [Hist.run, Option.some.injEq] at h2; subst h2; exact h1
    | cons o os ih =>
      intro h h' d0 h1 hc h2
      simp only [Hist.run, Option.bind_eq_some_iff] at h2
      obtain ⟨h3, h4, h5⟩ := h2
      refine ih h3 h' d0 ?_ (fun o ho => hc o (by simp [ho])) h5
      cases o <;> simp only [Hist.step] at h4
      case call g =>
        split at h4 <;> simp only [Option.some.injEq] at h4 <;> subst h4
        · simp only [List.map_cons, List.reverse_cons, List.append_assoc] at h1 ⊢
          rw [← List.append_assoc, List.head?_append, h1]; rfl
        · exact h1
      case group fmt gs =>
        split at h4
        · simp only [Option.some.injEq] at h4
          subst h4
          simp only [List.map_cons, List.reverse_cons, List.append_assoc] at h1 ⊢
          rw [← List.append_assoc, List.head?_append, h1]; rfl
        · simp at h4
      case undo =>
        split at h4 <;> simp only [Option.some.injEq] at h4 <;> subst h4
        · exact h1
        · rename_i p t ps hps
          rw [hps] at h1
          simp only [List.map_cons, List.reverse_cons, List.append_assoc, List.cons_append, List.nil_append] at h1 ⊢
          rw [List.head?_append] at h1 ⊢
          simpa using h1
      case redo =>
        split at h4 <;> simp only [Option.some.injEq] at h4 <;> subst h4
        · exact h1
        · simp only [List.map_cons, List.reverse_cons, List.append_assoc] at h1 ⊢
          rw [← List.append_assoc, List.head?_append, h1]; rfl
      case clear => exact absurd rfl (hc .clear (by simp))
      case disable => simp at h4
      all_goals (simp only [Option.some.injEq] at h4; subst h4; exact h1)
  have undos : ∀ (n : Nat) (h : Hist D), h.past.length = n →
      ∃ h', h.run (E := E) (List.replicate n .undo) = some h' ∧ h'.past = [] ∧
        ((h'.past.map Prod.fst).reverse ++ [h'.now]).head? = ((h.past.map Prod.fst).reverse ++ [h.now]).head? := by
    intro n
    induction n with
    | zero => intro h hn; exact ⟨h, by simp [Hist.run], by simpa using hn, rfl⟩
    | succ n ih =>
      intro h hn
      cases hps : h.past with
      | nil => simp [hps] at hn
      | cons p ps =>
        obtain ⟨q, t⟩ := p
        obtain ⟨h', a1, a2, a3⟩ := ih ⟨ps, q, (h.now, t) :: h.future⟩ (by simpa [hps] using hn)
        refine ⟨h', ?_, a2, ?_⟩
        · simp [List.replicate_succ, Hist.run, Hist.step, hps, a1]
        · rw [a3]; simp [List.head?_append]
  obtain ⟨h', a1, a2, a3⟩ := undos h.past.length h rfl
  have hrun : ∀ (a b : List (Op D E)) (h h1 : Hist D), h.run a = some h1 → h.run (a ++ b) = h1.run b := by
    intro a b
    induction a with
    | nil => intro h h1 e; simp only [Hist.run, Option.some.injEq] at e; subst e; rfl
    | cons o os ih =>
      intro h h1 e
      simp only [Hist.run, Option.bind_eq_some_iff] at e
      obtain ⟨h3, h4, h5⟩ := e
      simp [Hist.run, h4, ih _ _ h5]
  have hw2 : WellBehaved (ops ++ List.replicate h.past.length .undo) := by
    intro o ho g hg
    rcases List.mem_append.1 ho with ho | ho
    · exact hwb o ho g hg
    · rw [(List.mem_replicate.1 ho).2] at hg; simp [Op.gens] at hg
  have hR := rel_run _ _ _ h' (rel_init d0) hw2 (by rw [hrun _ _ _ _ hs, a1])
  rw [hR.doc]
  have h0 := oldest ops _ h d0 (by simp) hc hs
  rw [← a3, a2] at h0
  simpa using h0

/-! ### C02: the redo list -/

/-- A successful call while recording is on puts the new action on top and empties the redo list. -/
theorem call_discards_redo (g : Gen D E) (w w' : World D E) (hr : w.stk.recv = .undos)
    (hc : step w (.call g) = (w', none)) :
    w'.stk.canredo = false ∧ w'.stk.undocount = w.stk.undocount + 1 ∧ ∃ it, w'.stk.undos = it :: w.stk.undos := by
  simp only [step, call] at hc
  split at hc
  · simp only [Prod.mk.injEq, and_true] at hc
    subst hc
    simp [Stack.append, hr, Stack.canredo, Stack.undocount]
  · simp at hc

/-- A call that raises records nothing. -/
theorem failed_call_records_nothing (g : Gen D E) (w w' : World D E) (e : Err E)
    (hc : step w (.call g) = (w', some e)) : w'.stk = w.stk := by
  simp only [step, call] at hc
  split at hc
  · simp at hc
  · simp only [Prod.mk.injEq] at hc
    rw [← hc.1]

/-- Undo followed by redo (and redo followed by undo) gives back exactly the same document and stack, in every state
reached by a well-behaved program. -/
theorem undo_redo_exact (d0 : D) (ops : List (Op D E)) (h : Hist D) (hwb : WellBehaved ops)
    (hs : Hist.run ⟨[], d0, []⟩ ops = some h) :
    let w := run ⟨d0, .init⟩ ops
    (w.stk.canundo = true → run w [.undo, .redo] = w) ∧ (w.stk.canredo = true → run w [.redo, .undo] = w) := by
  have hR := rel_run ops _ _ h (rel_init d0) hwb hs
  intro w
  change Rel w h at hR
  have h1 := hR.past
  have h2 := hR.fut
  have h3 := hR.doc
  have h4 := hR.recv
  constructor
  · intro hu
    cases hu' : w.stk.undos with
    | nil => simp [Stack.canundo, hu'] at hu
    | cons it its =>
      rw [hu'] at h1
      cases hp : h.past with
      | nil => rw [hp] at h1; simp [PastOK] at h1
      | cons p ps =>
        rw [hp] at h1
        simp only [PastOK] at h1
        obtain ⟨it', a1, _, _, a4⟩ := it.undo_of_done _ _ h1.1
        simp only [run, List.foldl, step]
        simp only [undo, hu', h3, a1, redo, a4]
        rw [← h3, ← h4, ← hu']
  · intro hu
    cases hu' : w.stk.redos with
    | nil => simp [Stack.canredo, hu'] at hu
    | cons it its =>
      rw [hu'] at h2
      cases hp : h.future with
      | nil => rw [hp] at h2; simp [FutOK] at h2
      | cons p ps =>
        rw [hp] at h2
        simp only [FutOK] at h2
        obtain ⟨it', a1, _, _, a4⟩ := it.do_of_undone _ _ h2.1
        simp only [run, List.foldl, step]
        simp only [redo, hu', h3, a1, undo, a4]
        rw [← h3, ← h4, ← hu']

/-! ### C03: a failing undo or redo empties the history and the exception reaches the caller -/

/-- Whatever the stack and the document are: if the undo (redo) call raises, nothing can be undone or redone any more,
recording is on and no savepoint is set; and it raises exactly when the top entry's undo (do) code raises. -/
theorem failing_undo_clears (w : World D E) (o : Op D E) (ho : o = .undo ∨ o = .redo) (e : Err E)
    (he : (step w o).2 = some e) :
    (step w o).1.stk.canundo = false ∧ (step w o).1.stk.canredo = false ∧ (step w o).1.stk.recv = .undos ∧
      (step w o).1.stk.haschanged = true := by
  rcases ho with rfl | rfl
  · simp only [step, undo] at he ⊢
    split at he
    · simp at he
    · split at he
      · simp at he
      · simp [Stack.clear, Stack.canundo, Stack.canredo, Stack.haschanged]
  · simp only [step, redo] at he ⊢
    split at he
    · simp at he
    · split at he
      · simp at he
      · simp [Stack.clear, Stack.canundo, Stack.canredo, Stack.haschanged]

theorem undo_raises_iff (w : World D E) (e : Err E) :
    ((step w .undo).2 = some e ↔ ∃ it rest, w.stk.undos = it :: rest ∧ (it.undo w.doc).2.2 = some e) ∧
    ((step w .redo).2 = some e ↔ ∃ it rest, w.stk.redos = it :: rest ∧ (it.do w.doc).2.2 = some e) := by
  constructor
  · simp only [step, undo]
    split
    · rename_i h; simp [h]
    · rename_i it rest h
      split <;> rename_i h' <;> simp [h, h']
  · simp only [step, redo]
    split
    · rename_i h; simp [h]
    · rename_i it rest h
      split <;> rename_i h' <;> simp [h, h']

/-! ### C04: a group is one entry, undone last-first and redone first-last -/

/-- Whatever the stack: after `with group(fmt): g1(); ...; gn()` with total user code there is exactly one more entry,
carrying the group's text; one undo runs the undo code of the actions from the last to the first, one redo their do code
from the first to the last. -/
theorem group_is_one_unit (w : World D E) (fmt : Nat → String) (acts : List ((D → D) × (D → D) × String)) :
    let gs : List (Gen D E) := acts.map fun a => Gen.total a.2.2 a.1 a.2.1
    let w1 := (step w (.group fmt gs)).1
    let w2 := (step w1 .undo).1
    let w3 := (step w2 .redo).1
    w1.doc = acts.foldl (fun d a => a.1 d) w.doc ∧
      w1.stk.undocount = w.stk.undocount + 1 ∧ w1.stk.undotext = some (fmt acts.length) ∧
      w1.stk.canredo = false ∧
      w2.doc = acts.foldr (fun a d => a.2.1 d) w1.doc ∧ w2.stk.undocount = w.stk.undocount ∧
      w3.doc = acts.foldl (fun d a => a.1 d) w2.doc ∧ w3.stk.undocount = w.stk.undocount + 1 := by
  have hcalls : ∀ (acts : List ((D → D) × (D → D) × String)) (w : World D E) (n : Nat), w.stk.recv = .grp n →
      calls (acts.map fun a => Gen.total a.2.2 a.1 a.2.1) w =
        ({ doc := acts.foldl (fun d a => a.1 d) w.doc
           stk := { w.stk with lists := fun k => if k = n then w.stk.lists n ++ acts.map (fun a =>
              Item.act ⟨Gen.total a.2.2 a.1 a.2.1, a.2.2, some fun d => (a.2.1 d, none)⟩) else w.stk.lists k } },
         none) := by
    intro acts
    induction acts with
    | nil =>
      intro w n _
      have : (fun k => if k = n then w.stk.lists n else w.stk.lists k) = w.stk.lists := by
        funext k; split <;> simp_all
      simp [calls, this]
    | cons a as ih =>
      intro w n hr
      simp only [List.map_cons, calls, call, Action.do, Action.new, Gen.total, Stack.append, hr, List.foldl_cons]
      have := ih { doc := a.1 w.doc, stk := { w.stk with lists := fun k => if k = n then w.stk.lists n ++
            [Item.act ⟨Gen.total a.2.2 a.1 a.2.1, a.2.2, some fun d => (a.2.1 d, none)⟩] else w.stk.lists k } } n hr
      simp only [Gen.total, hr] at this
      rw [this]
      simp only [if_pos, List.append_assoc, List.cons_append, List.nil_append]
      congr 3
      funext k
      by_cases hk : k = n <;> simp [hk]
  have hundo : ∀ (acts : List ((D → D) × (D → D) × String)) (d : D),
      undoList (acts.map (fun a =>
        (Item.act ⟨Gen.total a.2.2 a.1 a.2.1, a.2.2, some fun d => (a.2.1 d, none)⟩ : Item D E))) d =
      (acts.foldr (fun a d => a.2.1 d) d, acts.map (fun a => Item.act ⟨Gen.total a.2.2 a.1 a.2.1, a.2.2, none⟩),
        none) := by
    intro acts
    induction acts with
    | nil => intro d; simp [undoList]
    | cons a as ih => intro d; simp [undoList, ih, Item.undo, Action.undo]
  have hdo : ∀ (acts : List ((D → D) × (D → D) × String)) (d : D),
      doList (acts.map (fun a => (Item.act ⟨Gen.total a.2.2 a.1 a.2.1, a.2.2, none⟩ : Item D E))) d =
      (acts.foldl (fun d a => a.1 d) d,
        acts.map (fun a => Item.act ⟨Gen.total a.2.2 a.1 a.2.1, a.2.2, some fun d => (a.2.1 d, none)⟩),
        none) := by
    intro acts
    induction acts with
    | nil => intro d; simp [doList]
    | cons a as ih =>
      intro d
      have hr : (Gen.total (E := E) a.2.2 a.1 a.2.1).run d = (a.1 d, .ok (a.2.2, fun d => (a.2.1 d, none))) := rfl
      simp [doList, ih, Item.do, Action.do, hr]
  intro gs w1 w2 w3
  have e1 : w1 = ⟨acts.foldl (fun d a => a.1 d) w.doc,
      { w.stk with
        undos := .group fmt (acts.map (fun a =>
          Item.act ⟨Gen.total a.2.2 a.1 a.2.1, a.2.2, some fun d => (a.2.1 d, none)⟩)) :: w.stk.undos
        redos := [], recv := .undos
        lists := fun k => if k = w.stk.nlists then acts.map (fun a =>
          Item.act ⟨Gen.total a.2.2 a.1 a.2.1, a.2.2, some fun d => (a.2.1 d, none)⟩) else w.stk.lists k
        nlists := w.stk.nlists + 1 }⟩ := by
    have := hcalls acts (enter w) w.stk.nlists (by simp [enter])
    simp only [w1, gs, step, withGroup, this]
    simp only [exitOk, Stack.resetreceiver, Stack.append, enter, if_pos, List.nil_append]
    congr 2
    funext k
    by_cases hk : k = w.stk.nlists <;> simp [hk]
  have e2 : w2.doc = acts.foldr (fun a d => a.2.1 d) w1.doc ∧ w2.stk.undos = w.stk.undos ∧
      w2.stk.redos = [.group fmt (acts.map (fun a => Item.act ⟨Gen.total a.2.2 a.1 a.2.1, a.2.2, none⟩))] := by
    simp [w2, step, undo, e1, Item.undo, hundo]
  have e3 : w3.doc = acts.foldl (fun d a => a.1 d) w2.doc ∧ w3.stk.undocount = w.stk.undocount + 1 := by
    simp [w3, step, redo, e2.2.2, Item.do, hdo, Stack.undocount, e2.2.1]
  refine ⟨by simp [e1], by simp [e1, Stack.undocount], by simp [e1, Stack.undotext, Item.text],
    by simp [e1, Stack.canredo], e2.1, by simp [Stack.undocount, e2.2.1], e3.1, e3.2⟩

/-! ### C05: nested groups and exceptions inside groups (the expected property is false) -/

/-- An exception that leaves a group leaves recording pointed at the abandoned group: the next successful call is not
added to the undo list, whatever the state was. -/
theorem group_exception_loses_next_call (w w1 w2 : World D E) (fmt : Nat → String) (gs : List (Gen D E)) (g : Gen D E)
    (e : Err E) (h1 : step w (.group fmt gs) = (w1, some e)) (h2 : step w1 (.call g) = (w2, none)) :
    w2.stk.undos = w.stk.undos ∧ w2.stk.redos = w.stk.redos := by
  have hc : ∀ (gs : List (Gen D E)) (w w' : World D E) (n : Nat) (r : Option (Err E)), w.stk.recv = .grp n →
      calls gs w = (w', r) → w'.stk.recv = .grp n ∧ w'.stk.undos = w.stk.undos ∧ w'.stk.redos = w.stk.redos := by
    intro gs
    induction gs with
    | nil => intro w w' n r hr h; simp only [calls, Prod.mk.injEq] at h; rw [← h.1]; exact ⟨hr, rfl, rfl⟩
    | cons g gs ih =>
      intro w w' n r hr h
      simp only [calls, call] at h
      split at h
      · rename_i w1 hw1
        split at hw1
        · simp only [Prod.mk.injEq, and_true] at hw1
          subst hw1
          have := ih _ w' n r (by simp [Stack.append, hr]) h
          simpa [Stack.append, hr] using this
        · simp at hw1
      · rename_i w1 e hw1
        split at hw1
        · simp at hw1
        · simp only [Prod.mk.injEq] at hw1 h
          rw [← h.1, ← hw1.1]
          exact ⟨hr, rfl, rfl⟩
  simp only [step, withGroup] at h1
  split at h1
  · simp at h1
  · rename_i w' e' hw'
    simp only [exitExc, Prod.mk.injEq] at h1
    have := hc gs (enter w) w' w.stk.nlists _ (by simp [enter]) hw'
    rw [h1.1] at this
    simp only [step, call] at h2
    split at h2
    · simp only [Prod.mk.injEq, and_true] at h2
      rw [← h2]
      simpa [Stack.append, this.1, enter] using this.2
    · simp at h2

/-- A nested group: `with group(a): g1(); with group(b): g2(); g3()` with total user code. -/
def nested (w : World D E) (fa fb : Nat → String) (g1 g2 g3 : Gen D E) : World D E :=
  let na := w.stk.nlists
  let w := enter w
  let w := (call g1 w).1
  let nb := w.stk.nlists
  let w := enter w
  let w := (call g2 w).1
  let w := exitOk fb nb w
  let w := (call g3 w).1
  exitOk fa na w

/-- The nested group does not become one entry: three entries appear, and the outer group (holding only `g1`) is on top
of `g3`, which is on top of the inner group. -/
theorem nested_group_makes_three_entries (w : World D E) (fa fb : Nat → String)
    (f1 u1 f2 u2 f3 u3 : D → D) :
    ∃ i1 i2 i3, (nested w fa fb (Gen.total "1" f1 u1) (Gen.total "2" f2 u2) (Gen.total "3" f3 u3)).stk.undos =
      .group fa [i1] :: i3 :: .group fb [i2] :: w.stk.undos ∧
      i1.text = "1" ∧ i2.text = "2" ∧ i3.text = "3" := by
  refine ⟨.act ⟨Gen.total "1" f1 u1, "1", some fun d => (u1 d, none)⟩,
    .act ⟨Gen.total "2" f2 u2, "2", some fun d => (u2 d, none)⟩,
    .act ⟨Gen.total "3" f3 u3, "3", some fun d => (u3 d, none)⟩, ?_, rfl, rfl, rfl⟩
  simp [nested, enter, call, Action.do, Action.new, Gen.total, Stack.append, exitOk, Stack.resetreceiver]

/-- Appending a number to a list document, with correct undo code that fails if the number is not last. -/
def pushGen (n : Nat) : Gen (List Nat) Unit :=
  { run := fun d => (d ++ [n], .ok (toString n,
      fun d => if d.getLast? = some n then (d.dropLast, none) else (d, some ()))) }

/-- A document operation that always raises. -/
def failGen : Gen (List Nat) Unit := { run := fun d => (d, .error ()) }

/-- The expected property is false: one undo after a nested group raises instead of restoring the document, although
every action has correct undo code. -/
theorem nested_group_not_undone_as_unit :
    ∃ (w : World (List Nat) Unit) (g1 g2 g3 : Gen (List Nat) Unit),
      g1.Invertible ∧ g2.Invertible ∧ g3.Invertible ∧
      (step (nested w (fun _ => "a") (fun _ => "b") g1 g2 g3) .undo).1.doc ≠ w.doc ∧
      (step (nested w (fun _ => "a") (fun _ => "b") g1 g2 g3) .undo).2 ≠ none := by
  have inv : ∀ n, (pushGen n).Invertible := by
    intro n d d' txt u h
    simp only [pushGen, Prod.mk.injEq, Except.ok.injEq] at h
    obtain ⟨rfl, _, rfl⟩ := h
    simp
  refine ⟨⟨[], .init⟩, pushGen 1, pushGen 2, pushGen 3, inv 1, inv 2, inv 3, ?_, ?_⟩ <;> decide

/-- The expected property is false: after an exception in a group a later, successful action cannot be undone. -/
theorem group_exception_breaks_recording :
    ∃ (ops : List (Op (List Nat) Unit)), WellBehaved ops ∧
      (run ⟨[], .init⟩ ops).doc ≠ [] ∧ (run ⟨[], .init⟩ ops).stk.canundo = false := by
  refine ⟨[.group (fun _ => "g") [failGen], .call (pushGen 1)], ?_, by decide, by decide⟩
  intro o ho g hg
  simp only [List.mem_cons, List.not_mem_nil, or_false] at ho
  rcases ho with rfl | rfl <;> simp only [Op.gens, List.mem_singleton] at hg <;> subst hg
  · exact ⟨fun d d' txt u h => by simp [failGen] at h, fun d d' e h => by simp [failGen] at h; exact h.symm⟩
  · refine ⟨fun d d' txt u h => ?_, fun d d' e h => by simp [pushGen] at h⟩
    simp only [pushGen, Prod.mk.injEq, Except.ok.injEq] at h
    obtain ⟨rfl, _, rfl⟩ := h
    simp

/-! ### C06: savepoints -/

/-- After the savepoint no new step is recorded while the position is before the savepoint (`n` steps), and the history
is neither cleared nor given another savepoint. -/
def NoBranchBelow (n : Nat) : Hist D → List (Op D E) → Prop
  | _, [] => True
  | h, o :: os =>
    ((∃ g, o = .call g) ∨ (∃ f gs, o = .group f gs) → n ≤ h.past.length) ∧ o ≠ .clear ∧ o ≠ .savepoint ∧
      ∀ h', h.step o = some h' → NoBranchBelow n h' os

/-- Partial form of C06: `haschanged()` is false exactly when the position is that of the savepoint, and then the
document is the saved one - provided no new action is recorded at an earlier position. What is missing: programs that
undo past the savepoint and then do something else; there the claim is false (`haschanged_misses_change`). -/
theorem haschanged_correct_partial (d0 : D) (ops1 ops2 : List (Op D E)) (h1 h2 : Hist D)
    (hwb1 : WellBehaved ops1) (hwb2 : WellBehaved ops2)
    (hs1 : Hist.run ⟨[], d0, []⟩ ops1 = some h1) (hs2 : h1.run ops2 = some h2)
    (hb : NoBranchBelow h1.past.length h1 ops2) :
    let w1 := run ⟨d0, .init⟩ ops1
    let w2 := run w1 (.savepoint :: ops2)
    (w2.stk.haschanged = false ↔ h2.past.length = h1.past.length) ∧ (w2.stk.haschanged = false → w2.doc = w1.doc) := by
  have hR1 := rel_run ops1 _ _ h1 (rel_init d0) hwb1 hs1
  intro w1 w2
  change Rel w1 h1 at hR1
  have hRs : Rel (step w1 .savepoint).1 h1 := ⟨hR1.doc, hR1.recv, hR1.past, hR1.fut⟩
  have hR2 : Rel w2 h2 := rel_run ops2 _ h1 h2 hRs hwb2 hs2
  -- the states up to the savepoint stay in the timeline
  have tl : ∀ (ops : List (Op D E)) (h h' : Hist D) (n : Nat) (L : List D) (w : World D E), Rel w h →
      WellBehaved ops → NoBranchBelow n h ops → h.run ops = some h' →
      ((h.past.map Prod.fst).reverse ++ h.now :: h.future.map Prod.fst).take (n + 1) = L → w.stk.savepoint = some n →
      ((h'.past.map Prod.fst).reverse ++ h'.now :: h'.future.map Prod.fst).take (n + 1) = L ∧
        (run w ops).stk.savepoint = some n := by
    intro ops
    induction ops with
    | nil =>
      intro h h' n L w _ _ _ hr hL hsp
      simp only [Hist.run, Option.some.injEq] at hr
      subst hr
      exact ⟨hL, hsp⟩
    | cons o os ih =>
      intro h h' n L w hR hwb hb hr hL hsp
      simp only [Hist.run, Option.bind_eq_some_iff] at hr
      obtain ⟨h3, h4, h5⟩ := hr
      obtain ⟨b1, b2, b3, b4⟩ := hb
      have hR3 := rel_step w h h3 o hR (hwb o (by simp)) h4
      refine ih h3 h' n L (step w o).1 hR3 (fun o' ho' => hwb o' (by simp [ho'])) (b4 h3 h4) h5 ?_ ?_
      · cases o <;> simp only [Hist.step] at h4
        case call g =>
          have hn := b1 (Or.inl ⟨g, rfl⟩)
          split at h4 <;> simp only [Option.some.injEq] at h4 <;> subst h4
          · simp only [List.map_cons, List.reverse_cons, List.append_assoc, List.cons_append, List.nil_append]
            rw [← hL, List.take_append, List.take_append]
            congr 1
            have : n + 1 - ((h.past.map Prod.fst).reverse).length ≤ 1 := by simp; omega
            generalize n + 1 - ((h.past.map Prod.fst).reverse).length = k at this
            rcases Nat.le_one_iff_eq_zero_or_eq_one.1 this with rfl | rfl <;> simp
          · exact hL
        case group f gs =>
          have hn := b1 (Or.inr ⟨f, gs, rfl⟩)
          split at h4
          · simp only [Option.some.injEq] at h4
            subst h4
            simp only [List.map_cons, List.reverse_cons, List.append_assoc, List.cons_append, List.nil_append]
            rw [← hL, List.take_append, List.take_append]
            congr 1
            have : n + 1 - ((h.past.map Prod.fst).reverse).length ≤ 1 := by simp; omega
            generalize n + 1 - ((h.past.map Prod.fst).reverse).length = k at this
            rcases Nat.le_one_iff_eq_zero_or_eq_one.1 this with rfl | rfl <;> simp
          · simp at h4
        case undo =>
          split at h4 <;> simp only [Option.some.injEq] at h4 <;> subst h4
          · exact hL
          · rename_i p t ps hps
            rw [hps] at hL
            simpa [List.append_assoc] using hL
        case redo =>
          split at h4 <;> simp only [Option.some.injEq] at h4 <;> subst h4
          · exact hL
          · rename_i p t ps hps
            rw [hps] at hL
            simpa [List.append_assoc] using hL
        case clear => exact absurd rfl b2
        case savepoint => exact absurd rfl b3
        case disable => simp at h4
        case enable => simp only [Option.some.injEq] at h4; subst h4; exact hL
      · cases o
        case call g =>
          simp only [step, call]
          split <;> simp [Stack.append, hsp, hR.recv]
        case group f gs =>
          simp only [Hist.step] at h4
          split at h4
          · rename_i d1 ha
            obtain ⟨l, e1, _, _⟩ := calls_grp gs (enter w) w.stk.nlists d1
              (fun g hg => (hwb (.group f gs) (by simp) g (by simpa [Op.gens] using hg)).1) (by simp [enter])
              (by rw [← hR.doc] at ha; simpa [enter] using ha)
            simp only [step, withGroup, e1]
            simpa [exitOk, Stack.resetreceiver, Stack.append, enter] using hsp
          · simp at h4
        case undo =>
          simp only [step, undo]
          split
          · exact hsp
          · rename_i it its hu
            have := hR.past
            rw [hu] at this
            cases hp : h.past with
            | nil => rw [hp] at this; simp [PastOK] at this
            | cons p ps =>
              rw [hp] at this
              simp only [PastOK] at this
              obtain ⟨it', a1, _⟩ := it.undo_of_done _ _ this.1
              rw [hR.doc, a1]
              exact hsp
        case redo =>
          simp only [step, redo]
          split
          · exact hsp
          · rename_i it its hu
            have := hR.fut
            rw [hu] at this
            cases hp : h.future with
            | nil => rw [hp] at this; simp [FutOK] at this
            | cons p ps =>
              rw [hp] at this
              simp only [FutOK] at this
              obtain ⟨it', a1, _⟩ := it.do_of_undone _ _ this.1
              rw [hR.doc, a1]
              exact hsp
        case clear => exact absurd rfl b2
        case savepoint => exact absurd rfl b3
        case disable => simp [Hist.step] at h4
        case enable => exact hsp
  obtain ⟨t1, t2⟩ := tl ops2 h1 h2 h1.past.length _ (step w1 .savepoint).1 hRs hwb2 hb hs2 rfl
    (by simp [step, Stack.setSavepoint, Stack.undocount, hR1.past.length])
  have hsp : w2.stk.savepoint = some h1.past.length := t2
  have hiff : w2.stk.haschanged = false ↔ h2.past.length = h1.past.length := by
    simp only [Stack.haschanged, hsp, Stack.undocount, hR2.past.length]
    rw [decide_eq_false_iff_not, Decidable.not_not]
    exact eq_comm
  refine ⟨hiff, fun hc => ?_⟩
  have hl := hiff.1 hc
  rw [hR2.doc, hR1.doc]
  have e1 : ((h2.past.map Prod.fst).reverse ++ h2.now :: h2.future.map Prod.fst)[h1.past.length]? = some h2.now := by
    rw [List.getElem?_append_right (by simp [hl])]; simp [hl]
  have e2 : ((h1.past.map Prod.fst).reverse ++ h1.now :: h1.future.map Prod.fst)[h1.past.length]? = some h1.now := by
    rw [List.getElem?_append_right (by simp)]; simp
  have := congrArg (fun l => l[h1.past.length]?) t1
  simp only [List.getElem?_take, Nat.lt_succ_self, if_true] at this
  rw [e1, e2] at this
  exact Option.some.inj this

/-- The full claim is false: save, undo, do something else - the document differs from the saved one but `haschanged()`
says it does not. -/
theorem haschanged_misses_change :
    ∃ (ops1 ops2 : List (Op (List Nat) Unit)), WellBehaved ops1 ∧ WellBehaved ops2 ∧
      let w1 := run ⟨[], .init⟩ ops1
      let w2 := run w1 (.savepoint :: ops2)
      w2.doc ≠ w1.doc ∧ w2.stk.haschanged = false := by
  have wb : ∀ n, (pushGen n).Invertible ∧ (pushGen n).Atomic := by
    intro n
    refine ⟨fun d d' txt u h => ?_, fun d d' e h => by simp [pushGen] at h⟩
    simp only [pushGen, Prod.mk.injEq, Except.ok.injEq] at h
    obtain ⟨rfl, _, rfl⟩ := h
    simp
  refine ⟨[.call (pushGen 1)], [.undo, .call (pushGen 2)], ?_, ?_, by decide, by decide⟩
  · intro o ho g hg; simp at ho; subst ho; simp [Op.gens] at hg; subst hg; exact wb 1
  · intro o ho g hg; simp at ho; rcases ho with rfl | rfl <;> simp [Op.gens] at hg; subst hg; exact wb 2

/-! ### C07: counts -/

/-- `undocount()` is the number of undos possible: for `k` undos the next one is possible exactly if `k < undocount()`. -/
theorem undocount_correct (d0 : D) (ops : List (Op D E)) (h : Hist D) (hwb : WellBehaved ops)
    (hs : Hist.run ⟨[], d0, []⟩ ops = some h) (k : Nat) :
    let w := run ⟨d0, .init⟩ ops
    (run w (List.replicate k .undo)).stk.canundo = decide (k < w.stk.undocount) := by
  have hR := rel_run ops _ _ h (rel_init d0) hwb hs
  intro w
  change Rel w h at hR
  clear_value w
  clear hs
  induction k generalizing w h with
  | zero => exact decide_eq_decide.2 Iff.rfl
  | succ k ih =>
    cases hp : h.past with
    | nil =>
      have h0 : w.stk.undos = [] := by have := hR.past.length; rw [hp] at this; simpa using this
      have hst : (step w .undo).1 = w := by simp [step, undo, h0]
      simp only [List.replicate_succ, run, List.foldl_cons, hst]
      have := ih h w hR
      simp only [run] at this
      rw [this]
      simp [Stack.undocount, h0]
    | cons p ps =>
      obtain ⟨q, t⟩ := p
      have hstep : h.step (E := E) .undo = some ⟨ps, q, (h.now, t) :: h.future⟩ := by simp [Hist.step, hp]
      have hR' := rel_step w h _ .undo hR (by simp [Op.gens]) hstep
      simp only [List.replicate_succ, run, List.foldl_cons]
      have := ih _ _ hR'
      simp only [run] at this
      rw [this]
      have l1 := hR'.past.length
      have l2 := hR.past.length
      rw [hp] at l2
      simp only [Stack.undocount, l1, l2, List.length_cons]
      simp

/-- `redocount()` is wrong: it can be positive when nothing can be redone and zero when something can. -/
theorem redocount_wrong :
    ∃ (ops1 ops2 : List (Op (List Nat) Unit)),
      ((run ⟨[], .init⟩ ops1).stk.redocount = 1 ∧ (run ⟨[], .init⟩ ops1).stk.canredo = false) ∧
      ((run ⟨[], .init⟩ ops2).stk.redocount = 0 ∧ (run ⟨[], .init⟩ ops2).stk.canredo = true) :=
  ⟨[.call (pushGen 1)], [.call (pushGen 1), .undo], by decide, by decide⟩

/-! ### C08: recording switched off -/

/-- While recording is off, calls change the document but neither list, whatever they do. -/
theorem disabled_records_nothing (w : World D E) (gs : List (Gen D E)) :
    let w' := run w (.disable :: gs.map .call)
    w'.stk.undos = w.stk.undos ∧ w'.stk.redos = w.stk.redos ∧ w'.stk.savepoint = w.stk.savepoint ∧
      w'.stk.recv = .off ∧ w'.doc = gs.foldl (fun d g => (g.run d).1) w.doc := by
  have key : ∀ (gs : List (Gen D E)) (w : World D E), w.stk.recv = .off →
      (run w (gs.map .call)).stk = w.stk ∧ (run w (gs.map .call)).doc = gs.foldl (fun d g => (g.run d).1) w.doc := by
    intro gs
    induction gs with
    | nil => intro w _; simp [run]
    | cons g gs ih =>
      intro w hr
      have hst : (step w (.call g)).1 = { w with doc := (g.run w.doc).1 } := by
        simp only [step, call, Action.do, Action.new]
        cases hg : g.run w.doc with
        | mk d' r => cases r <;> simp [Stack.append, hr]
      have := ih { w with doc := (g.run w.doc).1 } hr
      simp only [List.map_cons, run, List.foldl_cons] at this ⊢
      rw [hst]
      exact this
  have := key gs { w with stk := w.stk.disable } rfl
  intro w'
  have e : w' = run { w with stk := w.stk.disable } (gs.map .call) := rfl
  rw [e, this.1, this.2]
  simp [Stack.disable]

/-- An undo or redo that has something to do, and also any group that ends normally, switches recording back on. -/
theorem undo_switches_recording_on (w : World D E) :
    (w.stk.canundo = true → (step w .undo).1.stk.recv = .undos) ∧
    (w.stk.canredo = true → (step w .redo).1.stk.recv = .undos) ∧
    (∀ fmt gs, (step w (.group fmt gs)).2 = none → (step w (.group fmt gs)).1.stk.recv = .undos) := by
  refine ⟨fun h => ?_, fun h => ?_, fun fmt gs h => ?_⟩
  · simp only [step, undo]
    split
    · rename_i hu; simp [Stack.canundo, hu] at h
    · split <;> simp [Stack.clear]
  · simp only [step, redo]
    split
    · rename_i hu; simp [Stack.canredo, hu] at h
    · split <;> simp [Stack.clear]
  · simp only [step, withGroup] at h ⊢
    split
    · simp [exitOk, Stack.resetreceiver, Stack.append]
    · rename_i hc; rw [hc] at h; simp at h

/-- With nothing to undo (redo), the call leaves recording off. -/
theorem empty_undo_keeps_recording_off (w : World D E) :
    (w.stk.canundo = false → (step w .undo).1 = w) ∧ (w.stk.canredo = false → (step w .redo).1 = w) := by
  constructor <;> intro h
  · have : w.stk.undos = [] := by simpa [Stack.canundo] using h
    simp [step, undo, this]
  · have : w.stk.redos = [] := by simpa [Stack.canredo] using h
    simp [step, redo, this]

/-! ### Non-vacuity -/

/-- A program with calls, a failing call, a group, undos and redos that meets all hypotheses of `undo_history`,
`undo_redo_exact`, `undo_all_restores`. -/
def sampleOps : List (Op (List Nat) Unit) :=
  [.call (pushGen 1), .call failGen, .group (fun _ => "g") [pushGen 2, pushGen 3], .undo, .redo, .undo, .savepoint]

theorem sampleOps_wellBehaved : WellBehaved sampleOps := by
  have wb : ∀ n, (pushGen n).Invertible ∧ (pushGen n).Atomic := by
    intro n
    refine ⟨fun d d' txt u h => ?_, fun d d' e h => by simp [pushGen] at h⟩
    simp only [pushGen, Prod.mk.injEq, Except.ok.injEq] at h
    obtain ⟨rfl, _, rfl⟩ := h
    simp
  have wf : failGen.Invertible ∧ failGen.Atomic :=
    ⟨fun d d' txt u h => by simp [failGen] at h, fun d d' e h => by simp [failGen] at h; exact h.symm⟩
  intro o ho g hg
  simp only [sampleOps, List.mem_cons, List.not_mem_nil, or_false] at ho
  rcases ho with rfl | rfl | rfl | rfl | rfl | rfl | rfl <;>
    simp only [Op.gens, List.mem_cons, List.not_mem_nil, or_false] at hg
  · subst hg; exact wb 1
  · subst hg; exact wf
  · rcases hg with rfl | rfl
    · exact wb 2
    · exact wb 3

example : WellBehaved sampleOps ∧
    Hist.run ⟨[], [], []⟩ sampleOps = some ⟨[([], "1")], [1], [([1, 2, 3], "g")]⟩ ∧
    (∀ o ∈ sampleOps, o ≠ .clear) :=
  ⟨sampleOps_wellBehaved, rfl, by intro o ho; simp [sampleOps] at ho; rcases ho with rfl|rfl|rfl|rfl|rfl|rfl|rfl <;> simp⟩

/-- hypotheses of `haschanged_correct_partial` -/
example : NoBranchBelow (E := Unit) 1 (⟨[([], "1")], [1], []⟩ : Hist (List Nat))
      [.call (pushGen 5), .undo, .undo, .redo] := by
  simp [NoBranchBelow, Hist.step, pushGen]

/-- hypotheses of `failing_undo_clears`: an undo that raises -/
example : ∃ (w : World (List Nat) Unit) (e : Err Unit), (step w .undo).2 = some e :=
  ⟨{ (run ⟨[], .init⟩ [.call (pushGen 1)]) with doc := [7] }, .user (), by decide⟩

/-- hypotheses of `group_exception_loses_next_call` -/
example : ∃ (w w1 w2 : World (List Nat) Unit) (e : Err Unit),
    step w (.group (fun _ => "") [pushGen 1, failGen]) = (w1, some e) ∧ step w1 (.call (pushGen 2)) = (w2, none) :=
  ⟨⟨[], .init⟩, _, _, .user (), rfl, rfl⟩

end Verif.Undo
