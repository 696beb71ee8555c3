import Verif.Heal.Props

/-!
C31: what `merge_node` leaves behind.
-/
namespace Verif.Heal

variable {P : Type} {ord : Finset Nat → List Nat}

/-- Removing all (active) elements of a list. -/
theorem removeAll_eq (ho : OrdOk ord) (l : List Nat) {s : St P} (hs : Good s) :
    ∃ s', forActive l (removeElement ord) s = (.ok (), s') ∧ Good s' ∧ s'.nodes = s.nodes ∧ s'.maxEl = s.maxEl ∧
      s'.maxNode = s.maxNode ∧ s'.modified = s.modified ∧ s'.elements.length ≤ s.elements.length ∧
      ∀ e, look s'.elements e = if e ∈ l then none else look s.elements e := by
  induction l generalizing s with
  | nil => exact ⟨s, rfl, hs, rfl, rfl, rfl, rfl, le_rfl, by simp⟩
  | cons a l ih =>
    simp only [forActive, forEach]
    rcases hl : look s.elements a with _ | el
    · obtain ⟨s', h1, h2, h3, h4, h5, h6, h7, h8⟩ := ih hs
      refine ⟨s', ?_, h2, h3, h4, h5, h6, h7, fun e => ?_⟩
      · rw [bind_ok (a := ()) (s' := s)]
        · exact h1
        · rw [get_bind, hl]; rfl
      · rw [h8]
        by_cases he : e = a
        · subst he; simp [hl]
        · simp [he]
    · obtain ⟨s', h1, h2, h3, h4, h5, h6, h7, h8⟩ := ih (good_rmSt hs a)
      refine ⟨s', ?_, h2, h3, h4, h5, h6, le_trans h7 (length_del_le _ _), fun e => ?_⟩
      · rw [bind_ok (a := ()) (s' := rmSt s a)]
        · exact h1
        · rw [get_bind, hl]
          exact removeElement_eq ho hs.incid hl
      · rw [h8, look_rmSt]
        by_cases he : e = a
        · subst he; simp
        · simp [he]

theorem mem_subst {rm tgt n : Nat} {ns : List Nat} :
    n ∈ subst rm tgt ns ↔ (n ∈ ns ∧ n ≠ rm) ∨ (n = tgt ∧ rm ∈ ns) := by
  simp only [subst, List.mem_map]
  constructor
  · rintro ⟨m, hm, h⟩
    by_cases hr : m = rm
    · rw [if_pos hr] at h; exact Or.inr ⟨h.symm, hr ▸ hm⟩
    · rw [if_neg hr] at h; exact Or.inl ⟨h ▸ hm, h ▸ hr⟩
  · rintro (⟨h1, h2⟩ | ⟨rfl, h⟩)
    · exact ⟨n, h1, by rw [if_neg h2]⟩
    · exact ⟨rm, h, by rw [if_pos rfl]⟩

theorem rm_notMem_subst {rm tgt : Nat} (h : rm ≠ tgt) (ns : List Nat) : rm ∉ subst rm tgt ns := by
  rw [mem_subst]; rintro (⟨_, h'⟩ | ⟨h', _⟩)
  · exact h' rfl
  · exact h h'

theorem subst_nodup {rm tgt : Nat} {ns : List Nat} (nd : ns.Nodup) (ht : tgt ∉ ns) : (subst rm tgt ns).Nodup := by
  refine (List.nodup_map_iff_inj_on nd).2 fun a ha b hb hab => ?_
  by_cases h1 : a = rm <;> by_cases h2 : b = rm
  · rw [h1, h2]
  · rw [if_pos h1, if_neg h2] at hab; exact absurd (hab ▸ hb) ht
  · rw [if_neg h1, if_pos h2] at hab; exact absurd (hab ▸ ha) ht
  · rwa [if_neg h1, if_neg h2] at hab

/-- No element lists a node twice. -/
def NoRepeat (s : St P) : Prop := ∀ e el, look s.elements e = some el → el.nodes.Nodup

/-- Two elements of the same type with the same nodes. -/
def SameEl (a b : Elem) : Prop := a.type = b.type ∧ ∀ n, n ∈ a.nodes ↔ n ∈ b.nodes

/-- No two elements are duplicates of each other. -/
def NoDuplicate (s : St P) : Prop :=
  ∀ e e' el el', look s.elements e = some el → look s.elements e' = some el' → SameEl el el' → e = e'

/-- State inside the substitution loop: `s1` is the state at its start, `rest` the ids still to come. -/
structure Mid (rm tgt : Nat) (s1 : St P) (rest : List Nat) (s : St P) : Prop where
  good : Good s
  simp : Simplices s
  nodes : s.nodes = s1.nodes
  maxNode : s.maxNode = s1.maxNode
  maxEl : s1.maxEl ≤ s.maxEl
  keep : ∀ e el, look s1.elements e = some el → rm ∉ el.nodes → look s.elements e = some el
  back : ∀ e el, look s.elements e = some el → look s1.elements e = some el ∨
    (s1.maxEl < e ∧ ∃ e0 el0, look s1.elements e0 = some el0 ∧ rm ∈ el0.nodes ∧
      el = { el0 with nodes := subst rm tgt el0.nodes })
  todo : ∀ e el, look s.elements e = some el → rm ∈ el.nodes → e ∈ rest
  done : ∀ e0 el0, look s1.elements e0 = some el0 → rm ∈ el0.nodes → look s.elements e0 = some el0 ∨
    ∃ e el, look s.elements e = some el ∧ el.type = el0.type ∧ rm ∉ el.nodes ∧ ∀ n ∈ subst rm tgt el0.nodes, n ∈ el.nodes
  both : ∀ e el, look s.elements e = some el → ¬ (rm ∈ el.nodes ∧ tgt ∈ el.nodes)
  nodup : NoDuplicate s1 → NoDuplicate s

/-- Body of the substitution loop. -/
def substBody (ord : Finset Nat → List Nat) (rm tgt eid : Nat) : M P Unit := do
  match look (← get).elements eid with
  | none => fail .keyError
  | some el =>
    removeElement ord eid
    let _ ← addElement ord { el with nodes := subst rm tgt el.nodes }
    pure ()

theorem noDuplicate_rm {s : St P} (h : NoDuplicate s) (a : Nat) : NoDuplicate (rmSt s a) := by
  intro e e' el el' h1 h2
  rw [look_rmSt] at h1 h2
  split at h1
  · cases h1
  · split at h2
    · cases h2
    · exact h e e' el el' h1 h2

theorem mid_step (ho : OrdOk ord) {rm tgt : Nat} (hne : rm ≠ tgt) {s1 : St P} (ht : (look s1.nodes tgt).isSome) {a : Nat}
    {rest : List Nat} (nd : (a :: rest).Nodup) {s : St P} (h : Mid rm tgt s1 (a :: rest) s) {el : Elem}
    (hl : look s.elements a = some el) (hrm : rm ∈ el.nodes) (hal : a ≤ s1.maxEl) :
    ∃ s', substBody ord rm tgt a s = (.ok (), s') ∧ Mid rm tgt s1 rest s' := by
  have ht0 : tgt ∉ el.nodes := fun hc => h.both a el hl ⟨hrm, hc⟩
  have hl1 : look s1.elements a = some el := by
    rcases h.back a el hl with x | ⟨x, _⟩
    · exact x
    · omega
  set ele : Elem := { el with nodes := subst rm tgt el.nodes } with hele
  have hex : ∀ n ∈ ele.nodes, (look (rmSt s a).nodes n).isSome := by
    intro n hn
    rcases mem_subst.1 hn with ⟨h1, _⟩ | ⟨rfl, _⟩
    · exact h.good.exist a el hl n h1
    · show (look s.nodes n).isSome
      rw [h.nodes]; exact ht
  have hlen : ele.nodes.length = el.nodes.length := by simp [hele, subst]
  have hrun : substBody ord rm tgt a s = ((addElement ord ele >>= fun _ => pure ()) : M P Unit) (rmSt s a) := by
    simp only [substBody, get_bind, hl]
    rw [bind_ok (removeElement_eq ho h.good.incid hl)]
  have hg1 := good_rmSt h.good a
  have hrmS : ∀ e el', look (rmSt s a).elements e = some el' → e ≠ a ∧ look s.elements e = some el' := by
    intro e el' he
    rw [look_rmSt] at he
    split at he
    · cases he
    · rename_i hh; exact ⟨hh, he⟩
  rcases addElement_cases ho hg1.incid ele with x | ⟨_, _, _, x | x⟩
  · exact absurd ⟨hex, by rw [hlen]; exact (h.simp a el hl).1, by rw [hlen]; exact (h.simp a el hl).2⟩ x.2
  · -- an equal element is there already
    refine ⟨rmSt s a, by rw [hrun, bind_ok x.1]; rfl, hg1, ?_, h.nodes, h.maxNode, h.maxEl, ?_, ?_, ?_, ?_, ?_, ?_⟩
    · exact fun e el' he => h.simp e el' (hrmS e el' he).2
    · intro e el' he hr
      have hea : e ≠ a := by rintro rfl; rw [hl1] at he; cases he; exact hr hrm
      rw [look_rmSt, if_neg hea]; exact h.keep e el' he hr
    · exact fun e el' he => h.back e el' (hrmS e el' he).2
    · intro e el' he hr
      have := h.todo e el' (hrmS e el' he).2 hr
      rcases List.mem_cons.1 this with h' | h'
      · exact absurd h' (hrmS e el' he).1
      · exact h'
    · intro e0 el0 he0 hr0
      by_cases hea : e0 = a
      · subst hea
        rw [hl1] at he0; cases he0
        obtain ⟨e, el', y1, y2, y3⟩ := x.2
        refine Or.inr ⟨e, el', y1, y2, fun hc => ?_, y3⟩
        exact h.both e el' (hrmS e el' y1).2 ⟨hc, y3 tgt (mem_subst.2 (Or.inr ⟨rfl, hrm⟩))⟩
      · rcases h.done e0 el0 he0 hr0 with y | ⟨e, el', y1, y2, y3, y4⟩
        · left; rw [look_rmSt, if_neg hea]; exact y
        · right
          refine ⟨e, el', ?_, y2, y3, y4⟩
          have : e ≠ a := by rintro rfl; rw [hl] at y1; cases y1; exact y3 hrm
          rw [look_rmSt, if_neg this]; exact y1
    · exact fun e el' he => h.both e el' (hrmS e el' he).2
    · exact fun hd => noDuplicate_rm (h.nodup hd) a
  · -- it is added
    have hS : ∀ e el', look (addSt (rmSt s a) ele).elements e = some el' →
        (e = s.maxEl + 1 ∧ el' = ele) ∨ (e ≠ a ∧ look s.elements e = some el') := by
      intro e el' he
      rw [look_addSt] at he
      split at he
      · rename_i hh; cases he; exact Or.inl ⟨hh, rfl⟩
      · exact Or.inr (hrmS e el' he)
    have hfresh : ∀ e el', look s.elements e = some el' → e ≠ s.maxEl + 1 := by
      intro e el' he hh
      have := h.good.elMax e el' he
      omega
    have hin : ∀ e el', e ≠ a → look s.elements e = some el' → look (addSt (rmSt s a) ele).elements e = some el' := by
      intro e el' hea he
      rw [look_addSt, if_neg (show e ≠ (rmSt s a).maxEl + 1 from hfresh e el' he), look_rmSt, if_neg hea]; exact he
    have hrmE : rm ∉ ele.nodes := rm_notMem_subst hne _
    refine ⟨addSt (rmSt s a) ele, by rw [hrun, bind_ok x.1]; rfl, good_addSt hg1 hex, ?_, h.nodes, h.maxNode,
      Nat.le_succ_of_le h.maxEl, ?_, ?_, ?_, ?_, ?_, ?_⟩
    · intro e el' he
      rcases hS e el' he with ⟨_, rfl⟩ | ⟨_, y⟩
      · rw [hlen]; exact h.simp a el hl
      · exact h.simp e el' y
    · intro e el' he hr
      have hea : e ≠ a := by rintro rfl; rw [hl1] at he; cases he; exact hr hrm
      exact hin e el' hea (h.keep e el' he hr)
    · intro e el' he
      rcases hS e el' he with ⟨rfl, rfl⟩ | ⟨_, y⟩
      · right
        refine ⟨?_, a, el, hl1, hrm, rfl⟩
        have := h.maxEl; omega
      · exact h.back e el' y
    · intro e el' he hr
      rcases hS e el' he with ⟨_, rfl⟩ | ⟨y1, y⟩
      · exact absurd hr hrmE
      · rcases List.mem_cons.1 (h.todo e el' y hr) with h' | h'
        · exact absurd h' y1
        · exact h'
    · intro e0 el0 he0 hr0
      by_cases hea : e0 = a
      · subst hea
        rw [hl1] at he0; cases he0
        exact Or.inr ⟨s.maxEl + 1, ele, by rw [look_addSt]; exact if_pos rfl, rfl, hrmE, fun n hn => hn⟩
      · rcases h.done e0 el0 he0 hr0 with y | ⟨e, el', y1, y2, y3, y4⟩
        · exact Or.inl (hin e0 el0 hea y)
        · have : e ≠ a := by rintro rfl; rw [hl] at y1; cases y1; exact y3 hrm
          exact Or.inr ⟨e, el', hin e el' this y1, y2, y3, y4⟩
    · intro e el' he
      rcases hS e el' he with ⟨_, rfl⟩ | ⟨_, y⟩
      · exact fun hc => hrmE hc.1
      · exact h.both e el' y
    · intro hd e e' el1 el2 h1 h2 hsame
      have hnew : ∀ e'' el'', e'' ≠ a → look s.elements e'' = some el'' → ¬ SameEl ele el'' := by
        intro e'' el'' hea hx hs
        refine x.2 e'' el'' (by rw [look_rmSt, if_neg hea]; exact hx) hs.1.symm fun n hn => (hs.2 n).1 hn
      rcases hS e el1 h1 with ⟨y1, rfl⟩ | ⟨y1, y2⟩ <;> rcases hS e' el2 h2 with ⟨z1, z⟩ | ⟨z1, z2⟩
      · omega
      · exact absurd hsame (hnew e' el2 z1 z2)
      · subst z
        exact absurd ⟨hsame.1.symm, fun n => (hsame.2 n).symm⟩ (hnew e el1 y1 y2)
      · exact h.nodup hd e e' el1 el2 y2 z2 hsame

theorem mid_loop (ho : OrdOk ord) {rm tgt : Nat} (hne : rm ≠ tgt) {s1 : St P} (ht : (look s1.nodes tgt).isSome)
    (rest : List Nat) (nd : rest.Nodup) (hb : ∀ e ∈ rest, e ≤ s1.maxEl)
    (hr : ∀ e ∈ rest, ∀ el, look s1.elements e = some el → rm ∈ el.nodes) {s : St P} (h : Mid rm tgt s1 rest s) :
    ∃ s', forActive rest (substBody ord rm tgt) s = (.ok (), s') ∧ Mid rm tgt s1 [] s' := by
  induction rest generalizing s with
  | nil => exact ⟨s, rfl, h⟩
  | cons a rest ih =>
    simp only [forActive, forEach]
    rcases hl : look s.elements a with _ | el
    · have h' : Mid rm tgt s1 rest s := { h with
        todo := fun e el he hr' => by
          rcases List.mem_cons.1 (h.todo e el he hr') with x | x
          · subst x; rw [hl] at he; cases he
          · exact x }
      obtain ⟨s', r1, r2⟩ := ih (List.nodup_cons.1 nd).2 (fun e he => hb e (by simp [he]))
        (fun e he => hr e (by simp [he])) h'
      refine ⟨s', ?_, r2⟩
      rw [bind_ok (a := ()) (s' := s)]
      · exact r1
      · rw [get_bind, hl]; rfl
    · have hrm : rm ∈ el.nodes := by
        rcases h.back a el hl with x | ⟨x, _⟩
        · exact hr a (by simp) el x
        · have := hb a (by simp); omega
      obtain ⟨s2, x1, x2⟩ := mid_step ho hne ht nd h hl hrm (hb a (by simp))
      obtain ⟨s', r1, r2⟩ := ih (List.nodup_cons.1 nd).2 (fun e he => hb e (by simp [he]))
        (fun e he => hr e (by simp [he])) x2
      refine ⟨s', ?_, r2⟩
      rw [bind_ok (a := ()) (s' := s2)]
      · exact r1
      · rw [get_bind, hl]; exact x1

/-- **C31**: merging a node `rm` into another node `tgt` of a mesh of simplices succeeds, and afterwards:
the node is gone, the target is at the average position and the other nodes did not move; no element lists the removed node;
elements that do not list it are unchanged; every element is an old one or a copy, under a new id, of an element that listed
`rm` and not `tgt`, with `tgt` in place of `rm`; each of those has such a replacement (of the same type, with all its nodes);
if no element had a repeated node before then none has, and if there were no duplicate elements then there are none. -/
theorem merge_valid (ho : OrdOk ord) {s : St P} (hs : Good s) (hq : Simplices s) (avg : P → P → P) {rm tgt : Nat}
    (hne : rm ≠ tgt) {a b : P} (ha : look s.nodes rm = some a) (hb : look s.nodes tgt = some b) :
    ∃ s', mergeNode ord avg rm tgt s = (.ok tgt, s') ∧ Good s' ∧ Simplices s' ∧
      (∀ n, look s'.nodes n = if n = rm then none else if n = tgt then some (avg a b) else look s.nodes n) ∧
      (∀ e el, look s'.elements e = some el → rm ∉ el.nodes) ∧
      (∀ e el, look s.elements e = some el → rm ∉ el.nodes → look s'.elements e = some el) ∧
      (∀ e el, look s'.elements e = some el → look s.elements e = some el ∨
        (s.maxEl < e ∧ ∃ e0 el0, look s.elements e0 = some el0 ∧ rm ∈ el0.nodes ∧ tgt ∉ el0.nodes ∧
          el = { el0 with nodes := el0.nodes.map fun n => if n = rm then tgt else n })) ∧
      (∀ e0 el0, look s.elements e0 = some el0 → rm ∈ el0.nodes → tgt ∉ el0.nodes →
        ∃ e el, look s'.elements e = some el ∧ el.type = el0.type ∧ tgt ∈ el.nodes ∧
          ∀ n ∈ el0.nodes, n ≠ rm → n ∈ el.nodes) ∧
      (NoRepeat s → NoRepeat s') ∧ (NoDuplicate s → NoDuplicate s') := by
  obtain ⟨l, hl, -, hlm⟩ := common_eq (ord := ord) ho hs.incid (ns := [rm, tgt]) (by simp)
  obtain ⟨s1, r1, g1, n1, e1, m1, -, -, k1⟩ := removeAll_eq ho l hs
  have hk1 : ∀ e el, look s1.elements e = some el ↔
      look s.elements e = some el ∧ ¬ (rm ∈ el.nodes ∧ tgt ∈ el.nodes) := by
    intro e el
    rw [k1]
    by_cases he : e ∈ l
    · rw [if_pos he]
      obtain ⟨el', y1, y2⟩ := (hlm e).1 he
      constructor
      · intro h; cases h
      · rintro ⟨z1, z2⟩
        rw [z1] at y1; cases y1
        exact absurd ⟨y2 rm (by simp), y2 tgt (by simp)⟩ z2
    · rw [if_neg he]
      refine ⟨fun h => ⟨h, fun hc => he ((hlm e).2 ⟨el, h, ?_⟩)⟩, fun h => h.1⟩
      intro n hn
      simp only [List.mem_cons, List.not_mem_nil, or_false] at hn
      rcases hn with rfl | rfl
      · exact hc.1
      · exact hc.2
  have hq1 : Simplices s1 := fun e el he => hq e el ((hk1 e el).1 he).1
  have htm : tgt ≤ s1.maxNode := by rw [m1]; exact hs.nodeMax tgt b hb
  set s2 := moveSt s1 tgt (avg a b) with hs2
  have g2 : Good s2 := good_modified (good_putSt g1 htm _) _
  have hq2 : Simplices s2 := hq1
  have hn2 : ∀ n, look s2.nodes n = if n = tgt then some (avg a b) else look s.nodes n := by
    intro n
    show look (put s1.nodes tgt (avg a b)) n = _
    rw [look_put, n1]
  obtain ⟨l2, hl2, nd2, hl2m⟩ := common_eq (ord := ord) ho g2.incid (ns := [rm]) (by simp)
  have hstart : Mid rm tgt s2 l2 s2 :=
    { good := g2, simp := hq2, nodes := rfl, maxNode := rfl, maxEl := le_rfl
      keep := fun _ _ h _ => h
      back := fun _ _ h => Or.inl h
      todo := fun e el he hr => (hl2m e).2 ⟨el, he, by simpa using hr⟩
      done := fun _ _ h _ => Or.inl h
      both := fun e el he => ((hk1 e el).1 he).2
      nodup := id }
  obtain ⟨s3, r3, h3⟩ := mid_loop ho hne (s1 := s2) (by rw [hn2, if_pos rfl]; rfl) l2 nd2
    (fun e he => by obtain ⟨el, y, _⟩ := (hl2m e).1 he; exact g2.elMax e el y)
    (fun e he el hel => by
      obtain ⟨el', y, y2⟩ := (hl2m e).1 he
      rw [hel] at y; cases y; exact y2 rm (by simp)) hstart
  have hempty : s3.nodeEls rm = ∅ := by
    refine Finset.eq_empty_of_forall_notMem fun e he => ?_
    obtain ⟨el, y1, y2⟩ := (h3.good.incid rm e).1 he
    exact absurd (h3.todo e el y1 y2) (by simp)
  have hrm3 : look s3.nodes rm = some a := by
    rw [h3.nodes, hn2, if_neg hne]; exact ha
  set s4 : St P := { s3 with nodes := del s3.nodes rm } with hs4
  have hrm4 : removeNode rm s3 = (.ok (), s4) := by
    simp only [removeNode, get_bind, hempty, ne_eq, not_true_eq_false, if_false, hrm3]
    rfl
  have g4 : Good s4 := by
    have := pres_removeNode (s0 := s3) (K := []) rm s3 (Since.refl h3.good)
    rw [hrm4] at this
    exact this.good
  have hback : ∀ e el, look s3.elements e = some el → look s.elements e = some el ∨
        (s.maxEl < e ∧ ∃ e0 el0, look s.elements e0 = some el0 ∧ rm ∈ el0.nodes ∧ tgt ∉ el0.nodes ∧
          el = { el0 with nodes := subst rm tgt el0.nodes }) := by
    intro e el he
    rcases h3.back e el he with y | ⟨y, e0, el0, y1, y2, y3⟩
    · exact Or.inl ((hk1 e el).1 y).1
    · have z := (hk1 e0 el0).1 y1
      have : s2.maxEl = s.maxEl := e1
      refine Or.inr ⟨by omega, e0, el0, z.1, y2, fun hc => z.2 ⟨y2, hc⟩, y3⟩
  refine ⟨s4, ?_, g4, h3.simp, ?_, ?_, ?_, hback, ?_, ?_, ?_⟩
  · simp only [mergeNode, if_neg hne]
    rw [bind_ok hl, bind_ok r1, get_bind]
    have hr1 : look s1.nodes rm = some a := by rw [n1]; exact ha
    have hr2 : look s1.nodes tgt = some b := by rw [n1]; exact hb
    simp only [hr1, hr2]
    rw [bind_ok (moveNode_eq g1 hq1 htm _), bind_ok hl2]
    have r3' : forActive l2 (fun eid => do
        match look (← get).elements eid with
        | none => fail .keyError
        | some el =>
          removeElement ord eid
          let _ ← addElement ord { el with nodes := subst rm tgt el.nodes }
          pure ()) s2 = (.ok (), s3) := r3
    exact (bind_ok r3').trans ((bind_ok hrm4).trans rfl)
  · intro n
    show look (del s3.nodes rm) n = _
    rw [look_del, h3.nodes, hn2]
  · intro e el he hc
    exact absurd (h3.todo e el he hc) (by simp)
  · intro e el he hr
    exact h3.keep e el ((hk1 e el).2 ⟨he, fun hc => hr hc.1⟩) hr
  · intro e0 el0 he0 hr0 ht0
    have y := (hk1 e0 el0).2 ⟨he0, fun hc => ht0 hc.2⟩
    rcases h3.done e0 el0 y hr0 with z | ⟨e, el, z1, z2, _, z4⟩
    · exact absurd (h3.todo e0 el0 z hr0) (by simp)
    · exact ⟨e, el, z1, z2, z4 tgt (mem_subst.2 (Or.inr ⟨rfl, hr0⟩)), fun n hn hne' => z4 n (mem_subst.2 (Or.inl ⟨hn, hne'⟩))⟩
  · intro hnr e el he
    rcases hback e el he with y | ⟨_, e0, el0, y1, _, y3, rfl⟩
    · exact hnr e el y
    · exact subst_nodup (hnr e0 el0 y1) y3
  · intro hd
    exact h3.nodup fun e e' el el' h1 h2 => hd e e' el el' ((hk1 e el).1 h1).1 ((hk1 e' el').1 h2).1

end Verif.Heal
