import Verif.Undo.Spec
/-! Undo for a part of the document: calls whose undo code restores the document up to a relation. -/
namespace Verif.Undo

variable {D E : Type}

/-- The undo code `u` leads from documents like `d` to documents like `p`. -/
def Bwd (I : D → Prop) (R : D → D → Prop) (u : D → D × Option E) (p d : D) : Prop :=
  ∀ d2 d3, I d2 → R d2 d → u d2 = (d3, none) → I d3 ∧ R d3 p

/-- The generator leads from documents like `p` to documents like `d`, with undo code for the way back. -/
def Fwd (I : D → Prop) (R : D → D → Prop) (g : Gen D E) (p d : D) : Prop :=
  ∀ d1 d2 t u, I d1 → R d1 p → g.run d1 = (d2, .ok (t, u)) → I d2 ∧ R d2 d ∧ Bwd I R u p d

/-- The generator called at the document `p` has correct undo code up to the relation, there and at documents like `p`. -/
def Good (I : D → Prop) (R : D → D → Prop) (g : Gen D E) (p : D) : Prop :=
  I p → ∀ d t u, g.run p = (d, .ok (t, u)) → Fwd I R g p d

/-- The same for generators one after another. -/
def GoodAll (I : D → Prop) (R : D → D → Prop) : List (Gen D E) → D → Prop
  | [], _ => True
  | g :: gs, p => Good I R g p ∧ ∀ d t u, g.run p = (d, .ok (t, u)) → GoodAll I R gs d

/-- The same for an operation. -/
def Op.Good (I : D → Prop) (R : D → D → Prop) (p : D) : Op D E → Prop
  | .call g => Undo.Good I R g p
  | .group _ gs => GoodAll I R gs p
  | .disable => False
  | _ => True

/-- The documents before the undoable steps, latest first, the present one, and the documents after the redoable steps. -/
structure Docs (D : Type) where
  past : List D
  now : D
  future : List D

/-- What an operation that turned the document `d` into `d'` does to the list of documents. -/
def Docs.step (h : Docs D) (d d' : D) : Op D E → Docs D
  | .call _ => ⟨d :: h.past, d', []⟩
  | .group _ _ => ⟨d :: h.past, d', []⟩
  | .undo =>
    match h.past with
    | [] => h
    | p :: ps => ⟨ps, p, h.now :: h.future⟩
  | .redo =>
    match h.future with
    | [] => h
    | f :: fs => ⟨h.now :: h.past, f, fs⟩
  | .clear => ⟨[], h.now, []⟩
  | _ => h

/-- Operations one after another, none of which raises or is outside `Op.Good`, with the list of documents. -/
inductive Steps (I : D → Prop) (R : D → D → Prop) : World D E → Docs D → List (Op D E) → World D E → Docs D → Prop where
  | nil {w : World D E} {h : Docs D} : Steps I R w h [] w h
  | cons {w w1 w2 : World D E} {h h2 : Docs D} {o : Op D E} {os : List (Op D E)} (hg : o.Good I R w.doc)
      (h1 : Undo.step w o = (w1, none)) (hs : Steps I R w1 (h.step w.doc w1.doc o) os w2 h2) : Steps I R w h (o :: os) w2 h2

section
variable {I : D → Prop} {R : D → D → Prop}

theorem Bwd.congr (hR : Equivalence R) {u : D → D × Option E} {p d p' d' : D} (h : Bwd I R u p d) (hp : R p p') (hd : R d d') :
    Bwd I R u p' d' := by
  intro d2 d3 hI h2 hu
  obtain ⟨k1, k2⟩ := h d2 d3 hI (hR.trans h2 (hR.symm hd)) hu
  exact ⟨k1, hR.trans k2 hp⟩

theorem Fwd.congr (hR : Equivalence R) {g : Gen D E} {p d p' d' : D} (h : Fwd I R g p d) (hp : R p p') (hd : R d d') :
    Fwd I R g p' d' := by
  intro d1 d2 t u hI h1 hr
  obtain ⟨k1, k2, k3⟩ := h d1 d2 t u hI (hR.trans h1 (hR.symm hp)) hr
  exact ⟨k1, hR.trans k2 hd, k3.congr hR hp hd⟩

/-- An item whose steps were done, between two documents. -/
inductive Done (I : D → Prop) (R : D → D → Prop) : List (Item D E) → D → D → Prop where
  | nil {p d : D} (h : R p d) : Done I R [] p d
  | cons {a : Action D E} {u : D → D × Option E} {is : List (Item D E)} {p m d : D} (hu : a.runner = some u)
      (hb : Bwd I R u p m) (hf : Fwd I R a.gen p m) (h : Done I R is m d) : Done I R (.act a :: is) p d

/-- An item whose steps can be done. -/
inductive Undone (I : D → Prop) (R : D → D → Prop) : List (Item D E) → D → D → Prop where
  | nil {p d : D} (h : R p d) : Undone I R [] p d
  | cons {a : Action D E} {is : List (Item D E)} {p m d : D} (hf : Fwd I R a.gen p m) (h : Undone I R is m d) :
      Undone I R (.act a :: is) p d

/-- An action or a group as a list of actions. -/
inductive DoneI (I : D → Prop) (R : D → D → Prop) : Item D E → D → D → Prop where
  | act {a : Action D E} {p d : D} (h : Done I R [.act a] p d) : DoneI I R (.act a) p d
  | group {fmt : Nat → String} {is : List (Item D E)} {p d : D} (h : Done I R is p d) : DoneI I R (.group fmt is) p d

inductive UndoneI (I : D → Prop) (R : D → D → Prop) : Item D E → D → D → Prop where
  | act {a : Action D E} {p d : D} (h : Undone I R [.act a] p d) : UndoneI I R (.act a) p d
  | group {fmt : Nat → String} {is : List (Item D E)} {p d : D} (h : Undone I R is p d) : UndoneI I R (.group fmt is) p d

theorem Done.congr (hR : Equivalence R) {is : List (Item D E)} : ∀ {p d p' d' : D}, Done I R is p d → R p p' → R d d' →
    Done I R is p' d' := by
  induction is with
  | nil =>
    intro p d p' d' h hp hd
    cases h with | nil h => exact .nil (hR.trans (hR.symm hp) (hR.trans h hd))
  | cons x is ih =>
    intro p d p' d' h hp hd
    cases h with
    | cons hu hb hf h => exact .cons hu (hb.congr hR hp (hR.refl _)) (hf.congr hR hp (hR.refl _)) (ih h (hR.refl _) hd)

theorem Undone.congr (hR : Equivalence R) {is : List (Item D E)} : ∀ {p d p' d' : D}, Undone I R is p d → R p p' → R d d' →
    Undone I R is p' d' := by
  induction is with
  | nil =>
    intro p d p' d' h hp hd
    cases h with | nil h => exact .nil (hR.trans (hR.symm hp) (hR.trans h hd))
  | cons x is ih =>
    intro p d p' d' h hp hd
    cases h with
    | cons hf h => exact .cons (hf.congr hR hp (hR.refl _)) (ih h (hR.refl _) hd)

theorem DoneI.congr (hR : Equivalence R) {i : Item D E} {p d p' d' : D} (h : DoneI I R i p d) (hp : R p p') (hd : R d d') :
    DoneI I R i p' d' := by
  cases h with
  | act h => exact .act (h.congr hR hp hd)
  | group h => exact .group (h.congr hR hp hd)

theorem UndoneI.congr (hR : Equivalence R) {i : Item D E} {p d p' d' : D} (h : UndoneI I R i p d) (hp : R p p') (hd : R d d') :
    UndoneI I R i p' d' := by
  cases h with
  | act h => exact .act (h.congr hR hp hd)
  | group h => exact .group (h.congr hR hp hd)

theorem undoList_rel (hR : Equivalence R) {is : List (Item D E)} : ∀ {p d d2 d3 : D} {is' : List (Item D E)}, Done I R is p d →
    I d2 → R d2 d → undoList is d2 = (d3, is', none) → I d3 ∧ R d3 p ∧ Undone I R is' p d := by
  induction is with
  | nil =>
    intro p d d2 d3 is' h hI h2 hu
    cases h with
    | nil h =>
      simp only [undoList, Prod.mk.injEq] at hu
      obtain ⟨rfl, rfl, _⟩ := hu
      exact ⟨hI, hR.trans h2 (hR.symm h), .nil h⟩
  | cons x is ih =>
    intro p d d2 d3 is' h hI h2 hu
    cases h with
    | @cons a u _ _ m _ hr hb hf h =>
      rw [undoList] at hu
      split at hu
      · cases hu
      next d4 is4 h4 =>
      obtain ⟨k1, k2, k3⟩ := ih h hI h2 h4
      rw [Item.undo, Action.undo, hr] at hu
      dsimp only at hu
      cases h5 : u d4 with
      | mk d5 e =>
        rw [h5] at hu
        cases e with
        | some e => simp at hu
        | none =>
          simp only [Prod.mk.injEq] at hu
          obtain ⟨rfl, rfl, _⟩ := hu
          obtain ⟨j1, j2⟩ := hb _ _ k1 k2 h5
          exact ⟨j1, j2, .cons hf k3⟩

theorem doList_rel (hR : Equivalence R) {is : List (Item D E)} : ∀ {p d d2 d3 : D} {is' : List (Item D E)}, Undone I R is p d →
    I d2 → R d2 p → doList is d2 = (d3, is', none) → I d3 ∧ R d3 d ∧ Done I R is' p d := by
  induction is with
  | nil =>
    intro p d d2 d3 is' h hI h2 hu
    cases h with
    | nil h =>
      simp only [doList, Prod.mk.injEq] at hu
      obtain ⟨rfl, rfl, _⟩ := hu
      exact ⟨hI, hR.trans h2 h, .nil h⟩
  | cons x is ih =>
    intro p d d2 d3 is' h hI h2 hu
    cases h with
    | @cons a _ _ m _ hf h =>
      rw [doList, Item.do, Action.do] at hu
      cases h5 : a.gen.run d2 with
      | mk d5 r =>
        rw [h5] at hu
        cases r with
        | error e => simp at hu
        | ok r =>
          obtain ⟨t, u⟩ := r
          dsimp only at hu
          cases h6 : doList is d5 with
          | mk d6 r6 =>
            obtain ⟨is6, r6⟩ := r6
            rw [h6] at hu
            simp only [Prod.mk.injEq] at hu
            obtain ⟨rfl, rfl, rfl⟩ := hu
            obtain ⟨j1, j2, j3⟩ := hf _ _ _ _ hI h2 h5
            obtain ⟨k1, k2, k3⟩ := ih h j1 j2 h6
            exact ⟨k1, k2, .cons rfl j3 hf k3⟩

theorem Item.undo_rel (hR : Equivalence R) {i i' : Item D E} {p d d2 d3 : D} (h : DoneI I R i p d) (hI : I d2) (h2 : R d2 d)
    (hu : i.undo d2 = (d3, i', none)) : I d3 ∧ R d3 p ∧ UndoneI I R i' p d := by
  cases h with
  | @act a _ _ h =>
    have : undoList [.act a] d2 = (d3, [i'], none) := by simp [undoList, hu]
    obtain ⟨k1, k2, k3⟩ := undoList_rel hR h hI h2 this
    refine ⟨k1, k2, ?_⟩
    cases k3 with | cons hf h => exact .act (.cons hf h)
  | group h =>
    rw [Item.undo] at hu
    cases h6 : undoList _ d2 with
    | mk d6 r6 =>
      obtain ⟨is6, r6⟩ := r6
      rw [h6] at hu
      simp only [Prod.mk.injEq] at hu
      obtain ⟨rfl, rfl, rfl⟩ := hu
      obtain ⟨k1, k2, k3⟩ := undoList_rel hR h hI h2 h6
      exact ⟨k1, k2, .group k3⟩

theorem Item.do_rel (hR : Equivalence R) {i i' : Item D E} {p d d2 d3 : D} (h : UndoneI I R i p d) (hI : I d2) (h2 : R d2 p)
    (hu : i.do d2 = (d3, i', none)) : I d3 ∧ R d3 d ∧ DoneI I R i' p d := by
  cases h with
  | @act a _ _ h =>
    have : doList [.act a] d2 = (d3, [i'], none) := by simp [doList, hu]
    obtain ⟨k1, k2, k3⟩ := doList_rel hR h hI h2 this
    refine ⟨k1, k2, ?_⟩
    cases k3 with | cons hr hb hf h => exact .act (.cons hr hb hf h)
  | group h =>
    rw [Item.do] at hu
    cases h6 : doList _ d2 with
    | mk d6 r6 =>
      obtain ⟨is6, r6⟩ := r6
      rw [h6] at hu
      simp only [Prod.mk.injEq] at hu
      obtain ⟨rfl, rfl, rfl⟩ := hu
      obtain ⟨k1, k2, k3⟩ := doList_rel hR h hI h2 h6
      exact ⟨k1, k2, .group k3⟩

/-- The undoable items lead back through the documents. -/
inductive PastR (I : D → Prop) (R : D → D → Prop) : List (Item D E) → List D → D → Prop where
  | nil {d : D} : PastR I R [] [] d
  | cons {i : Item D E} {is : List (Item D E)} {p d : D} {ps : List D} (h : DoneI I R i p d) (hs : PastR I R is ps p) :
      PastR I R (i :: is) (p :: ps) d

/-- The redoable items lead forward through the documents. -/
inductive FutR (I : D → Prop) (R : D → D → Prop) : List (Item D E) → List D → D → Prop where
  | nil {d : D} : FutR I R [] [] d
  | cons {i : Item D E} {is : List (Item D E)} {p d : D} {ds : List D} (h : UndoneI I R i p d) (hs : FutR I R is ds d) :
      FutR I R (i :: is) (d :: ds) p

theorem PastR.congr (hR : Equivalence R) {is : List (Item D E)} {ps : List D} {d d' : D} (h : PastR I R is ps d) (hd : R d d') :
    PastR I R is ps d' := by
  cases h with
  | nil => exact .nil
  | cons h hs => exact .cons (h.congr hR (hR.refl _) hd) hs

theorem PastR.length {is : List (Item D E)} {ps : List D} {d : D} (h : PastR I R is ps d) : is.length = ps.length := by
  induction h with
  | nil => rfl
  | cons _ _ ih => simp [ih]

theorem FutR.length {is : List (Item D E)} {ps : List D} {d : D} (h : FutR I R is ps d) : is.length = ps.length := by
  induction h with
  | nil => rfl
  | cons _ _ ih => simp [ih]

/-- World and documents agree. -/
structure Agree (I : D → Prop) (R : D → D → Prop) (w : World D E) (h : Docs D) : Prop where
  on : w.stk.recv = .undos
  inv : I w.doc
  now : R w.doc h.now
  past : PastR I R w.stk.undos h.past h.now
  future : FutR I R w.stk.redos h.future h.now

theorem calls_rel (hR : Equivalence R) {gs : List (Gen D E)} : ∀ {w w' : World D E} {n : Nat} {p : D}, calls gs w = (w', none) →
    w.stk.recv = .grp n → GoodAll I R gs w.doc → I w.doc → Done I R (w.stk.lists n) p w.doc →
    I w'.doc ∧ Done I R (w'.stk.lists n) p w'.doc ∧ w'.stk.undos = w.stk.undos ∧ w'.stk.redos = w.stk.redos := by
  have hsnoc : ∀ {is : List (Item D E)} {p m d : D} {a : Action D E} {u : D → D × Option E}, Done I R is p m →
      a.runner = some u → Bwd I R u m d → Fwd I R a.gen m d → Done I R (is ++ [.act a]) p d := by
    intro is
    induction is with
    | nil =>
      intro p m d a u h hu hb hf
      cases h with
      | nil h => exact .cons hu (hb.congr hR (hR.symm h) (hR.refl _)) (hf.congr hR (hR.symm h) (hR.refl _)) (.nil (hR.refl _))
    | cons x is ih =>
      intro p m d a u h hu hb hf
      cases h with
      | cons k1 k2 k3 k4 => exact .cons k1 k2 k3 (ih k4 hu hb hf)
  induction gs with
  | nil =>
    intro w w' n p h _ _ hI hD
    simp only [calls, Prod.mk.injEq, and_true] at h
    subst h
    exact ⟨hI, hD, rfl, rfl⟩
  | cons g gs ih =>
    intro w w' n p h hn hG hI hD
    rw [calls] at h
    split at h
    rotate_left
    · cases h
    next w1 h1 =>
    rw [call, Action.do] at h1
    cases h5 : g.run w.doc with
    | mk d5 r =>
      rw [show (Action.new g).gen = g from rfl, h5] at h1
      cases r with
      | error e => simp at h1
      | ok r =>
        obtain ⟨t, u⟩ := r
        simp only [Prod.mk.injEq, and_true] at h1
        subst h1
        obtain ⟨j1, j2, j3⟩ := hG.1 hI _ _ _ h5 _ _ _ _ hI (hR.refl _) h5
        obtain ⟨k1, k2, k3, k4⟩ := ih (n := n) (p := p) h (by simp [Stack.append, hn]) (hG.2 _ _ _ h5) j1 (by
          simp only [Stack.append, hn, if_true]
          exact hsnoc hD rfl j3 (hG.1 hI _ _ _ h5))
        refine ⟨k1, k2, k3.trans ?_, k4.trans ?_⟩ <;> simp [Stack.append, hn]

theorem step_agree (hR : Equivalence R) {w w' : World D E} {h : Docs D} {o : Op D E} (hA : Agree I R w h) (hg : o.Good I R w.doc)
    (hs : step w o = (w', none)) : Agree I R w' (h.step w.doc w'.doc o) := by
  obtain ⟨a1, a2, a3, a4, a5⟩ := hA
  cases o with
  | call g =>
    rw [step, call, Action.do] at hs
    cases h5 : g.run w.doc with
    | mk d5 r =>
      rw [show (Action.new g).gen = g from rfl, h5] at hs
      cases r with
      | error e => simp at hs
      | ok r =>
        obtain ⟨t, u⟩ := r
        simp only [Prod.mk.injEq, and_true] at hs
        subst hs
        have hf := hg a2 _ _ _ h5
        obtain ⟨j1, j2, j3⟩ := hf _ _ _ _ a2 (hR.refl _) h5
        refine ⟨by simp [Stack.append, a1], j1, hR.refl _, ?_, ?_⟩
        · simp only [Stack.append, a1, Docs.step]
          exact .cons (.act (.cons rfl j3 hf (.nil (hR.refl _)))) (a4.congr hR (hR.symm a3))
        · simp only [Stack.append, a1, Docs.step]
          exact .nil
  | group fmt gs =>
    rw [step, withGroup] at hs
    split at hs
    rotate_left
    · cases hs
    next w1 h1 =>
    simp only [Prod.mk.injEq, and_true] at hs
    subst hs
    obtain ⟨k1, k2, k3, k4⟩ := calls_rel hR (n := w.stk.nlists) (p := w.doc) h1 rfl hg a2 (by
      simp only [enter, if_true]
      exact .nil (hR.refl _))
    refine ⟨by simp [exitOk, Stack.append, Stack.resetreceiver], k1, hR.refl _, ?_, ?_⟩
    · simp only [exitOk, Stack.append, Stack.resetreceiver, Docs.step, k3]
      exact .cons (.group k2) (a4.congr hR (hR.symm a3))
    · simp only [exitOk, Stack.append, Stack.resetreceiver, Docs.step]
      exact .nil
  | undo =>
    rw [step, undo] at hs
    cases hu : w.stk.undos with
    | nil =>
      rw [hu] at hs a4
      simp only [Prod.mk.injEq, and_true] at hs
      subst hs
      cases hp : h.past with
      | cons p ps => rw [hp] at a4; cases a4
      | nil =>
        simp only [Docs.step, hp]
        refine ⟨a1, a2, a3, ?_, a5⟩
        rw [hu, hp]; exact .nil
    | cons i is =>
      rw [hu] at hs a4
      dsimp only at hs
      cases h6 : i.undo w.doc with
      | mk d6 r6 =>
        obtain ⟨i6, r6⟩ := r6
        rw [h6] at hs
        cases r6 with
        | some e => simp at hs
        | none =>
          simp only [Prod.mk.injEq, and_true] at hs
          subst hs
          cases hp : h.past with
          | nil => rw [hp] at a4; cases a4
          | cons p ps =>
            rw [hp] at a4
            cases a4 with
            | cons k1 k2 =>
              obtain ⟨j1, j2, j3⟩ := Item.undo_rel hR k1 a2 a3 h6
              simp only [Docs.step, hp]
              exact ⟨rfl, j1, j2, k2, .cons j3 a5⟩
  | redo =>
    rw [step, redo] at hs
    cases hu : w.stk.redos with
    | nil =>
      rw [hu] at hs a5
      simp only [Prod.mk.injEq, and_true] at hs
      subst hs
      cases hp : h.future with
      | cons p ps => rw [hp] at a5; cases a5
      | nil =>
        simp only [Docs.step, hp]
        refine ⟨a1, a2, a3, a4, ?_⟩
        rw [hu, hp]; exact .nil
    | cons i is =>
      rw [hu] at hs a5
      dsimp only at hs
      cases h6 : i.do w.doc with
      | mk d6 r6 =>
        obtain ⟨i6, r6⟩ := r6
        rw [h6] at hs
        cases r6 with
        | some e => simp at hs
        | none =>
          simp only [Prod.mk.injEq, and_true] at hs
          subst hs
          cases hp : h.future with
          | nil => rw [hp] at a5; cases a5
          | cons p ps =>
            rw [hp] at a5
            cases a5 with
            | cons k1 k2 =>
              obtain ⟨j1, j2, j3⟩ := Item.do_rel hR k1 a2 a3 h6
              simp only [Docs.step, hp]
              exact ⟨rfl, j1, j2, .cons j3 a4, k2⟩
  | clear =>
    simp only [step, Prod.mk.injEq, and_true] at hs
    subst hs
    exact ⟨rfl, a2, a3, .nil, .nil⟩
  | savepoint =>
    simp only [step, Prod.mk.injEq, and_true] at hs
    subst hs
    exact ⟨a1, a2, a3, a4, a5⟩
  | disable => exact hg.elim
  | enable =>
    simp only [step, Prod.mk.injEq, and_true] at hs
    subst hs
    exact ⟨rfl, a2, a3, a4, a5⟩

theorem Steps.agree (hR : Equivalence R) {w w' : World D E} {h h' : Docs D} {os : List (Op D E)} (hs : Steps I R w h os w' h')
    (hA : Agree I R w h) : Agree I R w' h' := by
  induction hs with
  | nil => exact hA
  | cons hg h1 _ ih => exact ih (step_agree hR hA hg h1)

/-- A program that starts with an empty stack, whose calls have correct undo code up to the relation and which raises nothing, has
at any time a document like the one in the list of documents, which undo and redo run through in both directions; the counts of
undoable and redoable steps are those of the list. -/
theorem undo_docs (hR : Equivalence R) {d : D} (hI : I d) {os : List (Op D E)} {w : World D E} {h : Docs D}
    (hs : Steps I R (⟨d, Stack.init⟩ : World D E) ⟨[], d, []⟩ os w h) :
    I w.doc ∧ R w.doc h.now ∧ w.stk.undocount = h.past.length ∧ w.stk.redos.length = h.future.length := by
  have hA := hs.agree hR ⟨rfl, hI, hR.refl _, .nil, .nil⟩
  exact ⟨hA.inv, hA.now, hA.past.length, hA.future.length⟩

/-- `undo` called `n` times; the first exception stops. -/
def undoTimes : Nat → World D E → World D E × Option (Err E)
  | 0, w => (w, none)
  | n + 1, w =>
    match undo w with
    | (w', none) => undoTimes n w'
    | (w', some e) => (w', some e)

theorem undoTimes_snoc {n : Nat} : ∀ {w w' : World D E}, undoTimes (n + 1) w = (w', none) →
    ∃ w1, undoTimes n w = (w1, none) ∧ undo w1 = (w', none) := by
  induction n with
  | zero =>
    intro w w' h
    simp only [undoTimes] at h
    split at h
    · next w1 h1 =>
      simp only [Prod.mk.injEq, and_true] at h
      subst h
      exact ⟨w, rfl, h1⟩
    · cases h
  | succ n ih =>
    intro w w' h
    rw [undoTimes] at h
    split at h
    · next w1 h1 =>
      obtain ⟨w2, h2, h3⟩ := ih h
      refine ⟨w2, ?_, h3⟩
      rw [undoTimes, h1]
      exact h2
    · cases h

/-- Calls one after another and as many times `undo`: the document is like the one before, and the steps recorded before are
there as before. -/
theorem calls_undo (hR : Equivalence R) {gs : List (Gen D E)} : ∀ {w w1 w2 : World D E} {h : Docs D}, Agree I R w h →
    GoodAll I R gs w.doc → calls gs w = (w1, none) → undoTimes gs.length w1 = (w2, none) →
      I w2.doc ∧ R w2.doc w.doc ∧ w2.stk.undocount = w.stk.undocount ∧ ∃ h', Agree I R w2 h' ∧ h'.past = h.past := by
  induction gs with
  | nil =>
    intro w w1 w2 h hA _ h1 h2
    simp only [calls, Prod.mk.injEq, and_true] at h1
    subst h1
    simp only [List.length_nil, undoTimes, Prod.mk.injEq, and_true] at h2
    subst h2
    exact ⟨hA.inv, hR.refl _, rfl, h, hA, rfl⟩
  | cons g gs ih =>
    intro w w1 w2 h hA hG h1 h2
    rw [calls] at h1
    split at h1
    rotate_left
    · cases h1
    next w3 h3 =>
    have hA3 := step_agree hR (o := .call g) hA hG.1 h3
    have hG3 : GoodAll I R gs w3.doc := by
      rw [call, Action.do] at h3
      cases h5 : g.run w.doc with
      | mk d5 r =>
        rw [show (Action.new g).gen = g from rfl, h5] at h3
        cases r with
        | error e => simp at h3
        | ok r =>
          obtain ⟨t, u⟩ := r
          simp only [Prod.mk.injEq, and_true] at h3
          subst h3
          exact hG.2 _ _ _ h5
    obtain ⟨w4, h4, h5⟩ := undoTimes_snoc h2
    obtain ⟨_, _, _, h', k4, k5⟩ := ih hA3 hG3 h1 h4
    have hA5 := step_agree hR (o := .undo) k4 trivial h5
    simp only [Docs.step] at k5
    simp only [Docs.step, k5] at hA5
    refine ⟨hA5.inv, hA5.now, ?_, _, hA5, rfl⟩
    rw [Stack.undocount, Stack.undocount, hA5.past.length, hA.past.length]

end

end Verif.Undo
