import Verif.Undo.Spec
/-! Helper lemmas for the undo model. -/
namespace Verif.Undo

variable {D E : Type}

mutual
/-- The item was done last, taking the document from `d` to `d'`, and its undo code is armed. -/
def Item.Done : Item D E → D → D → Prop
  | .act a, d, d' => ∃ u, a.gen.run d = (d', .ok (a.text, u)) ∧ a.runner = some u ∧ u d' = (d, none)
  | .group _ items, d, d' => DoneList items d d'
def DoneList : List (Item D E) → D → D → Prop
  | [], d, d' => d' = d
  | x :: xs, d, d' => ∃ m, x.Done d m ∧ DoneList xs m d'
end

mutual
/-- The item was undone last; doing it takes the document from `d` to `d'`. -/
def Item.Undone : Item D E → D → D → Prop
  | .act a, d, d' => ∃ u, a.gen.run d = (d', .ok (a.text, u)) ∧ a.runner = none ∧ u d' = (d, none)
  | .group _ items, d, d' => UndoneList items d d'
def UndoneList : List (Item D E) → D → D → Prop
  | [], d, d' => d' = d
  | x :: xs, d, d' => ∃ m, x.Undone d m ∧ UndoneList xs m d'
end

mutual
theorem Item.undo_of_done (it : Item D E) (d d' : D) (h : it.Done d d') :
    ∃ it', it.undo d' = (d, it', none) ∧ it'.Undone d d' ∧ it'.text = it.text ∧ it'.do d = (d', it, none) := by
  match it, h with
  | .act a, h =>
    simp only [Item.Done] at h
    obtain ⟨u, h1, h2, h3⟩ := h
    refine ⟨.act { a with runner := none }, ?_, ?_, ?_, ?_⟩
    · simp [Item.undo, Action.undo, h2, h3]
    · exact ⟨u, h1, rfl, h3⟩
    · simp [Item.text]
    · simp only [Item.do, Action.do, h1]
      cases a; simp_all
  | .group fmt items, h =>
    simp only [Item.Done] at h
    obtain ⟨l, h1, h2, h3, h4⟩ := undoList_of_done items d d' h
    refine ⟨.group fmt l, ?_, ?_, ?_, ?_⟩
    · simp [Item.undo, h1]
    · simpa [Item.Undone] using h2
    · simp [Item.text, h3]
    · simp [Item.do, h4]
theorem undoList_of_done (items : List (Item D E)) (d d' : D) (h : DoneList items d d') :
    ∃ l, undoList items d' = (d, l, none) ∧ UndoneList l d d' ∧ l.length = items.length ∧
      doList l d = (d', items, none) := by
  match items, h with
  | [], h =>
    simp only [DoneList] at h
    subst h
    exact ⟨[], by simp [undoList], by simp [UndoneList], rfl, by simp [doList]⟩
  | x :: xs, h =>
    simp only [DoneList] at h
    obtain ⟨m, hx, hxs⟩ := h
    obtain ⟨x', a1, a2, _, a4⟩ := x.undo_of_done d m hx
    obtain ⟨l, b1, b2, b3, b4⟩ := undoList_of_done xs m d' hxs
    refine ⟨x' :: l, ?_, ?_, ?_, ?_⟩
    · simp [undoList, b1, a1]
    · exact ⟨m, a2, b2⟩
    · simp [b3]
    · simp [doList, a4, b4]
end

mutual
theorem Item.do_of_undone (it : Item D E) (d d' : D) (h : it.Undone d d') :
    ∃ it', it.do d = (d', it', none) ∧ it'.Done d d' ∧ it'.text = it.text ∧ it'.undo d' = (d, it, none) := by
  match it, h with
  | .act a, h =>
    simp only [Item.Undone] at h
    obtain ⟨u, h1, h2, h3⟩ := h
    refine ⟨.act { a with runner := some u }, ?_, ?_, ?_, ?_⟩
    · simp [Item.do, Action.do, h1]
    · exact ⟨u, h1, rfl, h3⟩
    · simp [Item.text]
    · simp only [Item.undo, Action.undo, h3]
      cases a; simp_all
  | .group fmt items, h =>
    simp only [Item.Undone] at h
    obtain ⟨l, h1, h2, h3, h4⟩ := doList_of_undone items d d' h
    refine ⟨.group fmt l, ?_, ?_, ?_, ?_⟩
    · simp [Item.do, h1]
    · simpa [Item.Done] using h2
    · simp [Item.text, h3]
    · simp [Item.undo, h4]
theorem doList_of_undone (items : List (Item D E)) (d d' : D) (h : UndoneList items d d') :
    ∃ l, doList items d = (d', l, none) ∧ DoneList l d d' ∧ l.length = items.length ∧
      undoList l d' = (d, items, none) := by
  match items, h with
  | [], h =>
    simp only [UndoneList] at h
    subst h
    exact ⟨[], by simp [doList], by simp [DoneList], rfl, by simp [undoList]⟩
  | x :: xs, h =>
    simp only [UndoneList] at h
    obtain ⟨m, hx, hxs⟩ := h
    obtain ⟨x', a1, a2, _, a4⟩ := x.do_of_undone d m hx
    obtain ⟨l, b1, b2, b3, b4⟩ := doList_of_undone xs m d' hxs
    refine ⟨x' :: l, ?_, ?_, ?_, ?_⟩
    · simp [doList, a1, b1]
    · exact ⟨m, a2, b2⟩
    · simp [b3]
    · simp [undoList, b4, a4]
end

/-- The undo list matches the past of the history. -/
def PastOK : List (Item D E) → List (D × String) → D → Prop
  | [], [], _ => True
  | it :: its, (p, t) :: ps, d => it.Done p d ∧ it.text = t ∧ PastOK its ps p
  | _, _, _ => False

/-- The redo list matches the future of the history. -/
def FutOK : List (Item D E) → List (D × String) → D → Prop
  | [], [], _ => True
  | it :: its, (f, t) :: fs, d => it.Undone d f ∧ it.text = t ∧ FutOK its fs f
  | _, _, _ => False

theorem PastOK.length {its : List (Item D E)} {ps : List (D × String)} {d : D} (h : PastOK its ps d) :
    its.length = ps.length := by
  induction its generalizing ps d with
  | nil => cases ps with
    | nil => rfl
    | cons p ps => simp [PastOK] at h
  | cons it its ih => cases ps with
    | nil => simp [PastOK] at h
    | cons p ps => simp only [PastOK] at h; simp [ih h.2.2]

theorem FutOK.length {its : List (Item D E)} {ps : List (D × String)} {d : D} (h : FutOK its ps d) :
    its.length = ps.length := by
  induction its generalizing ps d with
  | nil => cases ps with
    | nil => rfl
    | cons p ps => simp [FutOK] at h
  | cons it its ih => cases ps with
    | nil => simp [FutOK] at h
    | cons p ps => simp only [FutOK] at h; simp [ih h.2.2]

theorem PastOK.head {its : List (Item D E)} {ps : List (D × String)} {d : D} (h : PastOK its ps d) :
    its.head?.map Item.text = ps.head?.map Prod.snd := by
  cases its <;> cases ps <;> simp_all [PastOK]

theorem FutOK.head {its : List (Item D E)} {ps : List (D × String)} {d : D} (h : FutOK its ps d) :
    its.head?.map Item.text = ps.head?.map Prod.snd := by
  cases its <;> cases ps <;> simp_all [FutOK]

/-- The world implements the history. -/
structure Rel (w : World D E) (h : Hist D) : Prop where
  doc : w.doc = h.now
  recv : w.stk.recv = .undos
  past : PastOK w.stk.undos h.past h.now
  fut : FutOK w.stk.redos h.future h.now

/-- The calls made inside a group: they end up in the group's list. -/
theorem calls_grp (gs : List (Gen D E)) (w : World D E) (n : Nat) (d' : D)
    (hg : ∀ g ∈ gs, g.Invertible) (hr : w.stk.recv = .grp n) (ha : applyAll gs w.doc = some d') :
    ∃ l, calls gs w =
        ({ doc := d'
           stk := { w.stk with lists := fun k => if k = n then w.stk.lists n ++ l else w.stk.lists k } }, none) ∧
      DoneList l w.doc d' ∧ l.length = gs.length := by
  induction gs generalizing w with
  | nil =>
    simp only [applyAll, Option.some.injEq] at ha
    refine ⟨[], ?_, by simp [DoneList, ha], rfl⟩
    have : (fun k => if k = n then w.stk.lists n else w.stk.lists k) = w.stk.lists := by
      funext k; split <;> simp_all
    simp [calls, this, ← ha]
  | cons g gs ih =>
    simp only [applyAll] at ha
    split at ha
    · rename_i d1 v hv
      obtain ⟨txt, u⟩ := v
      have hu := hg g (by simp) _ _ _ _ hv
      let a : Action D E := { gen := g, text := txt, runner := some u }
      let w1 : World D E :=
        { doc := d1, stk := { w.stk with
            lists := fun k => if k = n then w.stk.lists n ++ [.act a] else w.stk.lists k } }
      have hc : call g w = (w1, none) := by
        simp [call, Action.do, Action.new, hv, Stack.append, hr, w1, a]
      obtain ⟨l, h1, h2, h3⟩ := ih w1 (fun g hg' => hg g (by simp [hg'])) hr ha
      refine ⟨.act a :: l, ?_, ⟨d1, ⟨u, hv, rfl, hu⟩, h2⟩, by simp [h3]⟩
      simp only [calls, hc, h1]
      simp only [w1, if_pos, List.append_assoc, List.cons_append, List.nil_append]
      congr 3
      funext k
      by_cases hk : k = n <;> simp [hk]
    · simp at ha

theorem rel_step (w : World D E) (h h' : Hist D) (o : Op D E) (hR : Rel w h)
    (hwb : ∀ g ∈ o.gens, g.Invertible ∧ g.Atomic) (hs : h.step o = some h') : Rel (step w o).1 h' := by
  obtain ⟨hd, hr, hp, hf⟩ := hR
  cases o with
  | call g =>
    have hg := hwb g (by simp [Op.gens])
    simp only [Hist.step] at hs
    rw [← hd] at hs
    split at hs
    · rename_i d1 txt u hv
      simp only [Option.some.injEq] at hs
      subst hs
      have hu := hg.1 _ _ _ _ hv
      simp only [step, call, Action.do, Action.new, hv, Stack.append, hr]
      refine ⟨rfl, rfl, ?_, ?_⟩
      · simp only [PastOK]
        exact ⟨⟨u, hv, rfl, hu⟩, rfl, by rw [hd]; exact hp⟩
      · simp [FutOK]
    · rename_i d1 e hv
      simp only [Option.some.injEq] at hs
      subst hs
      have := hg.2 _ _ _ hv
      simp only [step, call, Action.do, Action.new, hv]
      refine ⟨by rw [this, hd], hr, hp, hf⟩
  | group fmt gs =>
    simp only [Hist.step] at hs
    rw [← hd] at hs
    split at hs
    · rename_i d1 ha
      simp only [Option.some.injEq] at hs
      subst hs
      obtain ⟨l, h1, h2, h3⟩ := calls_grp gs (enter w) w.stk.nlists d1
        (fun g hg => (hwb g (by simpa [Op.gens] using hg)).1) (by simp [enter]) (by simpa [enter] using ha)
      simp only [step, withGroup, h1]
      simp only [exitOk, Stack.resetreceiver, Stack.append, enter]
      refine ⟨rfl, rfl, ?_, ?_⟩
      · simp only [PastOK, Item.Done, Item.text, if_pos, List.nil_append]
        refine ⟨h2, by rw [h3], by rw [hd]; exact hp⟩
      · simp [FutOK]
    · simp at hs
  | undo =>
    simp only [Hist.step] at hs
    split at hs
    · rename_i hnil
      simp only [Option.some.injEq] at hs
      subst hs
      have : w.stk.undos = [] := by
        have := hp.length; rw [hnil] at this; simpa using this
      simp only [step, undo, this]
      exact ⟨hd, hr, hp, hf⟩
    · rename_i p t ps hps
      simp only [Option.some.injEq] at hs
      subst hs
      rw [hps] at hp
      cases hu : w.stk.undos with
      | nil => rw [hu] at hp; simp [PastOK] at hp
      | cons it its =>
        rw [hu] at hp
        simp only [PastOK] at hp
        obtain ⟨it', a1, a2, a3, _⟩ := it.undo_of_done _ _ hp.1
        simp only [step, undo, hu, hd, a1]
        refine ⟨rfl, rfl, hp.2.2, ?_⟩
        simp only [FutOK]
        exact ⟨a2, by rw [a3, hp.2.1], hf⟩
  | redo =>
    simp only [Hist.step] at hs
    split at hs
    · rename_i hnil
      simp only [Option.some.injEq] at hs
      subst hs
      have : w.stk.redos = [] := by
        have := hf.length; rw [hnil] at this; simpa using this
      simp only [step, redo, this]
      exact ⟨hd, hr, hp, hf⟩
    · rename_i p t ps hps
      simp only [Option.some.injEq] at hs
      subst hs
      rw [hps] at hf
      cases hu : w.stk.redos with
      | nil => rw [hu] at hf; simp [FutOK] at hf
      | cons it its =>
        rw [hu] at hf
        simp only [FutOK] at hf
        obtain ⟨it', a1, a2, a3, _⟩ := it.do_of_undone _ _ hf.1
        simp only [step, redo, hu, hd, a1]
        refine ⟨rfl, rfl, ?_, hf.2.2⟩
        simp only [PastOK]
        exact ⟨a2, by rw [a3, hf.2.1], hp⟩
  | clear =>
    simp only [Hist.step, Option.some.injEq] at hs
    subst hs
    exact ⟨hd, rfl, by simp [step, Stack.clear, PastOK], by simp [step, Stack.clear, FutOK]⟩
  | savepoint =>
    simp only [Hist.step, Option.some.injEq] at hs
    subst hs
    exact ⟨hd, hr, hp, hf⟩
  | enable =>
    simp only [Hist.step, Option.some.injEq] at hs
    subst hs
    exact ⟨hd, rfl, hp, hf⟩
  | disable => simp [Hist.step] at hs

theorem rel_run (ops : List (Op D E)) (w : World D E) (h h' : Hist D) (hR : Rel w h)
    (hwb : WellBehaved ops) (hs : h.run ops = some h') : Rel (run w ops) h' := by
  induction ops generalizing w h with
  | nil => simp only [Hist.run, Option.some.injEq] at hs; subst hs; exact hR
  | cons o os ih =>
    simp only [Hist.run, Option.bind_eq_some_iff] at hs
    obtain ⟨h1, hs1, hs2⟩ := hs
    exact ih (step w o).1 h1 (rel_step w h h1 o hR (hwb o (by simp)) hs1)
      (fun o' ho' => hwb o' (by simp [ho'])) hs2

theorem rel_init (d : D) : Rel (E := E) ⟨d, .init⟩ ⟨[], d, []⟩ :=
  ⟨rfl, rfl, by simp [Stack.init, PastOK], by simp [Stack.init, FutOK]⟩

end Verif.Undo
