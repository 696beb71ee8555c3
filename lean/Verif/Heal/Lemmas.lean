import Verif.Heal.Model
import Mathlib.Data.Finset.Insert
import Mathlib.Data.List.Nodup
import Mathlib.Data.Finset.Erase

/-!
Basic lemmas for the healing model: dictionaries, sequencing, and the exact effect of the elementary operations.
-/
namespace Verif.Heal

variable {P : Type} {α β : Type}

/-! ### Dictionaries -/

theorem look_del (d : List (Nat × α)) (k k' : Nat) :
    look (del d k) k' = if k' = k then none else look d k' := by
  induction d with
  | nil => simp [del, look]
  | cons p d ih =>
    obtain ⟨a, x⟩ := p
    simp only [del] at ih ⊢
    by_cases h : a = k
    · subst h
      simp only [List.filter_cons, bne_self_eq_false, Bool.false_eq_true, if_false, ih, look]
      by_cases h' : k' = a
      · simp [h']
      · simp [h', Ne.symm h']
    · simp only [List.filter_cons, bne_iff_ne, ne_eq, h, not_false_eq_true, if_true, look, ih]
      by_cases h' : a = k'
      · subst h'; simp [h]
      · simp [h']

theorem look_put (d : List (Nat × α)) (k k' : Nat) (a : α) :
    look (put d k a) k' = if k' = k then some a else look d k' := by
  induction d with
  | nil => simp [put, look, eq_comm]
  | cons p d ih =>
    obtain ⟨b, x⟩ := p
    by_cases h : b = k
    · subst h
      by_cases h' : k' = b
      · simp [put, look, h']
      · simp [put, look, h', Ne.symm h']
    · by_cases h' : b = k'
      · subst h'; simp [put, look, h]
      · simp [put, look, h, h', ih]

theorem look_mem {d : List (Nat × α)} {k : Nat} {a : α} (h : look d k = some a) : (k, a) ∈ d := by
  induction d with
  | nil => simp [look] at h
  | cons p d ih =>
    obtain ⟨b, x⟩ := p
    by_cases hb : b = k
    · subst hb; simp [look] at h; simp [h]
    · simp [look, hb] at h; simp [ih h]

theorem look_isSome_iff (d : List (Nat × α)) (k : Nat) : (look d k).isSome ↔ k ∈ d.map Prod.fst := by
  induction d with
  | nil => simp [look]
  | cons p d ih =>
    obtain ⟨b, x⟩ := p
    by_cases hb : b = k
    · simp [look, hb]
    · simp only [look, hb, if_false, ih, List.map_cons, List.mem_cons]
      simp [Ne.symm hb]

theorem mem_look {d : List (Nat × α)} (nd : (d.map Prod.fst).Nodup) {k : Nat} {a : α} (h : (k, a) ∈ d) :
    look d k = some a := by
  induction d with
  | nil => simp at h
  | cons p d ih =>
    obtain ⟨b, x⟩ := p
    simp only [List.map_cons, List.nodup_cons] at nd
    rcases List.mem_cons.1 h with h | h
    · cases h; simp [look]
    · have hb : b ≠ k := by
        rintro rfl
        exact nd.1 (List.mem_map.2 ⟨_, h, rfl⟩)
      simp [look, hb, ih nd.2 h]

theorem keys_del (d : List (Nat × α)) (k : Nat) : (del d k).map Prod.fst = (d.map Prod.fst).filter (· != k) := by
  induction d with
  | nil => rfl
  | cons p d ih =>
    simp only [del] at ih
    by_cases h : p.1 = k <;> simp [del, List.filter_cons, h, ih]

theorem nodup_del {d : List (Nat × α)} (nd : (d.map Prod.fst).Nodup) (k : Nat) : ((del d k).map Prod.fst).Nodup := by
  rw [keys_del]; exact nd.filter _

theorem keys_put (d : List (Nat × α)) (k : Nat) (a : α) :
    (put d k a).map Prod.fst = if k ∈ d.map Prod.fst then d.map Prod.fst else d.map Prod.fst ++ [k] := by
  induction d with
  | nil => simp [put]
  | cons p d ih =>
    obtain ⟨b, x⟩ := p
    by_cases h : b = k
    · simp [put, h]
    · simp only [put, h, if_false, List.map_cons, ih, List.mem_cons, Ne.symm h, false_or]
      split <;> simp

theorem nodup_put {d : List (Nat × α)} (nd : (d.map Prod.fst).Nodup) (k : Nat) (a : α) :
    ((put d k a).map Prod.fst).Nodup := by
  rw [keys_put]
  split
  · exact nd
  · rename_i h
    refine List.nodup_append.2 ⟨nd, by simp, ?_⟩
    intro x hx y hy
    simp only [List.mem_singleton] at hy
    subst hy
    exact fun e => h (e ▸ hx)

theorem length_put (d : List (Nat × α)) (k : Nat) (a : α) :
    (put d k a).length = if (look d k).isSome then d.length else d.length + 1 := by
  have h := congrArg List.length (keys_put d k a)
  rw [List.length_map] at h
  rw [h]
  by_cases hk : k ∈ d.map Prod.fst
  · rw [if_pos hk, if_pos ((look_isSome_iff d k).2 hk), List.length_map]
  · rw [if_neg hk, if_neg (fun h => hk ((look_isSome_iff d k).1 h))]; simp

theorem length_del_le (d : List (Nat × α)) (k : Nat) : (del d k).length ≤ d.length := List.length_filter_le _ _

theorem length_del_lt {d : List (Nat × α)} {k : Nat} (h : (look d k).isSome) : (del d k).length < d.length := by
  obtain ⟨p, hp, rfl⟩ := List.mem_map.1 ((look_isSome_iff d k).1 h)
  refine List.length_filter_lt_length_iff_exists.2 ⟨p, hp, by simp⟩

/-! ### Sequencing -/

theorem bind_ok {m : M P α} {f : α → M P β} {s s' : St P} {a : α} (h : m s = (.ok a, s')) :
    (m >>= f) s = f a s' := by
  show (match m s with | (.ok a, s') => f a s' | (.error e, s') => (.error e, s')) = _
  rw [h]

theorem bind_err {m : M P α} {f : α → M P β} {s s' : St P} {e : Err} (h : m s = (.error e, s')) :
    (m >>= f) s = (.error e, s') := by
  show (match m s with | (.ok a, s') => f a s' | (.error e, s') => (.error e, s')) = _
  rw [h]

/-- A finished sequence: both parts finished. -/
theorem bind_eq_ok {m : M P α} {f : α → M P β} {s s' : St P} {b : β} (h : (m >>= f) s = (.ok b, s')) :
    ∃ a s1, m s = (.ok a, s1) ∧ f a s1 = (.ok b, s') := by
  rcases hm : m s with ⟨r, s1⟩
  cases r with
  | ok a => rw [bind_ok hm] at h; exact ⟨a, s1, rfl, h⟩
  | error e => rw [bind_err hm] at h; simp at h

theorem get_bind {f : St P → M P β} {s : St P} : ((get : M P (St P)) >>= f) s = f s s := rfl
theorem modify_bind {g : St P → St P} {f : Unit → M P β} {s : St P} : (modify g >>= f) s = f () (g s) := rfl
theorem pure_apply {a : α} {s : St P} : (pure a : M P α) s = (.ok a, s) := rfl
theorem pure_bind' {a : α} {f : α → M P β} {s : St P} : ((pure a : M P α) >>= f) s = f a s := rfl
theorem fail_apply {e : Err} {s : St P} : (fail e : M P α) s = (.error e, s) := rfl
theorem fail_bind {e : Err} {f : α → M P β} {s : St P} : ((fail e : M P α) >>= f) s = (.error e, s) := rfl
theorem modify_apply {g : St P → St P} {s : St P} : (modify g : M P Unit) s = (.ok (), g s) := rfl

/-- Whatever happens, an exception included, the property is kept. -/
def Pres (I : St P → Prop) (m : M P α) : Prop := ∀ s, I s → I (m s).2

section pres
variable {I : St P → Prop}

theorem pres_pure (a : α) : Pres I (pure a : M P α) := fun _ h => h
theorem pres_fail (e : Err) : Pres I (fail e : M P α) := fun _ h => h

theorem pres_bind {m : M P α} {f : α → M P β} (hm : Pres I m) (hf : ∀ a, Pres I (f a)) : Pres I (m >>= f) := by
  intro s hs
  have h1 := hm s hs
  rcases h : m s with ⟨r, s1⟩
  rw [h] at h1
  cases r with
  | ok a => rw [bind_ok h]; exact hf a s1 h1
  | error e => rw [bind_err h]; exact h1

theorem pres_get {f : St P → M P β} (h : ∀ s, I s → I (f s s).2) : Pres I ((get : M P (St P)) >>= f) :=
  fun s hs => h s hs

theorem pres_forEach {l : List α} {f : α → M P Unit} (h : ∀ a ∈ l, Pres I (f a)) : Pres I (forEach l f) := by
  induction l with
  | nil => exact pres_pure ()
  | cons a l ih =>
    exact pres_bind (h a (by simp)) fun _ => ih fun b hb => h b (by simp [hb])

theorem pres_forActive {l : List Nat} {f : Nat → M P Unit}
    (h : ∀ e ∈ l, ∀ s, I s → (look s.elements e).isSome → I (f e s).2) : Pres I (forActive l f) := by
  refine pres_forEach fun e he => pres_get fun s hs => ?_
  by_cases hl : (look s.elements e).isSome
  · rw [if_pos hl]; exact h e he s hs hl
  · rw [if_neg hl]; exact hs

end pres

/-! ### Well-formed states -/

/-- The iteration order of sets lists exactly the members, once each. -/
structure OrdOk (ord : Finset Nat → List Nat) : Prop where
  mem : ∀ s x, x ∈ ord s ↔ x ∈ s
  nodup : ∀ s, (ord s).Nodup

/-- Each node's element set is exactly the set of elements that list the node. -/
def Consistent (s : St P) : Prop :=
  ∀ n e, e ∈ s.nodeEls n ↔ ∃ el, look s.elements e = some el ∧ n ∈ el.nodes

/-- Consistent, ids bounded by the counters, elements list existing nodes only. -/
structure Good (s : St P) : Prop where
  keys : (s.elements.map Prod.fst).Nodup
  nkeys : (s.nodes.map Prod.fst).Nodup
  incid : Consistent s
  elMax : ∀ e el, look s.elements e = some el → e ≤ s.maxEl
  nodeMax : ∀ n p, look s.nodes n = some p → n ≤ s.maxNode
  exist : ∀ e el, look s.elements e = some el → ∀ n ∈ el.nodes, (look s.nodes n).isSome

theorem Good.fresh {s : St P} (h : Good s) {e : Nat} (he : s.maxEl < e) : look s.elements e = none := by
  rcases hl : look s.elements e with _ | el
  · rfl
  · exact absurd (h.elMax e el hl) (by omega)

theorem Good.freshNode {s : St P} (h : Good s) {n : Nat} (he : s.maxNode < n) : look s.nodes n = none := by
  rcases hl : look s.nodes n with _ | el
  · rfl
  · exact absurd (h.nodeMax n el hl) (by omega)

/-! ### Effect of the elementary operations -/

variable {ord : Finset Nat → List Nat}

theorem mem_interAll {ne : Nat → Finset Nat} {ns : List Nat} {t : Finset Nat} (h : interAll ne ns = some t) (e : Nat) :
    e ∈ t ↔ ∀ n ∈ ns, e ∈ ne n := by
  induction ns generalizing t with
  | nil => simp [interAll] at h
  | cons n l ih =>
    cases l with
    | nil => simp only [interAll, Option.some.injEq] at h; subst h; simp
    | cons m l =>
      simp only [interAll, Option.map_eq_some_iff] at h
      obtain ⟨t', h', rfl⟩ := h
      rw [Finset.mem_inter, ih h']
      simp

theorem interAll_some {ne : Nat → Finset Nat} {ns : List Nat} (h : ns ≠ []) : ∃ t, interAll ne ns = some t := by
  induction ns with
  | nil => exact absurd rfl h
  | cons n l ih =>
    cases l with
    | nil => exact ⟨_, rfl⟩
    | cons m l =>
      obtain ⟨t, ht⟩ := ih (by simp)
      exact ⟨_, by simp only [interAll, ht]; rfl⟩

/-- `common_elements` lists the elements containing all the given nodes. -/
theorem common_eq (ho : OrdOk ord) {s : St P} (hs : Consistent s) {ns : List Nat} (hn : ns ≠ []) :
    ∃ l, common ord ns s = (.ok l, s) ∧ l.Nodup ∧
      ∀ e, e ∈ l ↔ ∃ el, look s.elements e = some el ∧ ∀ n ∈ ns, n ∈ el.nodes := by
  obtain ⟨t, ht⟩ := interAll_some (ne := s.nodeEls) hn
  refine ⟨ord t, ?_, ho.nodup t, fun e => ?_⟩
  · simp only [common, get_bind, ht, pure_apply]
  · rw [ho.mem, mem_interAll ht]
    constructor
    · intro h
      obtain ⟨n0, hn0⟩ := List.exists_mem_of_ne_nil ns hn
      obtain ⟨el, hel, _⟩ := (hs n0 e).1 (h n0 hn0)
      refine ⟨el, hel, fun n hn => ?_⟩
      obtain ⟨el', hel', hn'⟩ := (hs n e).1 (h n hn)
      rw [hel] at hel'; cases hel'; exact hn'
    · rintro ⟨el, hel, h⟩ n hn
      exact (hs n e).2 ⟨el, hel, h n hn⟩

/-- `common_elements` never changes the state. -/
theorem common_state (ns : List Nat) (s : St P) : (common ord ns s).2 = s := by
  simp only [common, get_bind]
  cases interAll s.nodeEls ns <;> rfl

theorem mkElement_state (ns : List Nat) (s : St P) : (mkElement ns s).2 = s := by
  simp only [mkElement, get_bind]
  split
  · rfl
  · split <;> rfl

theorem mkElement_ok {ns : List Nat} {s : St P} (h1 : ∀ n ∈ ns, (look s.nodes n).isSome) (h2 : 1 ≤ ns.length)
    (h3 : ns.length ≤ 4) : mkElement ns s = (.ok (ns.filterMap (look s.nodes)), s) := by
  simp only [mkElement, get_bind]
  rw [if_neg, if_neg]
  · rfl
  · omega
  · simp only [List.any_eq_true, not_exists, not_and, Option.isNone_iff_eq_none]
    intro n hn h
    have := h1 n hn
    rw [h] at this; simp at this

theorem mkElement_eq_ok {ns : List Nat} {s s' : St P} {ps : List P} (h : mkElement ns s = (.ok ps, s')) :
    s' = s ∧ (∀ n ∈ ns, (look s.nodes n).isSome) ∧ 1 ≤ ns.length ∧ ns.length ≤ 4 ∧ ps = ns.filterMap (look s.nodes) := by
  simp only [mkElement, get_bind] at h
  split at h
  · simp [fail_apply] at h
  · rename_i h1
    split at h
    · simp [fail_apply] at h
    · rename_i h2
      simp only [pure_apply, Prod.mk.injEq, Except.ok.injEq] at h
      refine ⟨h.2.symm, fun n hn => ?_, by omega, by omega, h.1.symm⟩
      simp only [List.any_eq_true, not_exists, not_and, Option.isNone_iff_eq_none] at h1
      exact Option.isSome_iff_ne_none.2 (h1 n hn)

/-- State after removing an element. -/
def rmSt (s : St P) (eid : Nat) : St P :=
  { s with
    elements := del s.elements eid
    nodeEls := fun n => (s.nodeEls n).erase eid }

theorem dropFrom_loop (eid : Nat) (l : List Nat) (nd : l.Nodup) (s : St P) (h : ∀ n ∈ l, eid ∈ s.nodeEls n) :
    forEach l (dropFrom eid) s =
      (.ok (), { s with nodeEls := fun n => if n ∈ l then (s.nodeEls n).erase eid else s.nodeEls n }) := by
  induction l generalizing s with
  | nil => simp [forEach, pure_apply]
  | cons n l ih =>
    have h1 : dropFrom eid n s =
        (.ok (), { s with nodeEls := Function.update s.nodeEls n ((s.nodeEls n).erase eid) }) := by
      simp only [dropFrom, get_bind, if_pos (h n (by simp)), modify_apply]
    simp only [forEach]
    rw [bind_ok h1, ih (List.nodup_cons.1 nd).2]
    · congr 2
      funext m
      have hn := (List.nodup_cons.1 nd).1
      by_cases hm : m = n
      · subst hm; simp [hn]
      · simp [hm, Function.update_of_ne hm]
    · intro m hm
      have : m ≠ n := fun e => (List.nodup_cons.1 nd).1 (e ▸ hm)
      show eid ∈ Function.update s.nodeEls n _ m
      rw [Function.update_of_ne this]
      exact h m (by simp [hm])

theorem removeElement_eq (ho : OrdOk ord) {s : St P} (hs : Consistent s) {eid : Nat} {el : Elem}
    (hel : look s.elements eid = some el) : removeElement ord eid s = (.ok (), rmSt s eid) := by
  simp only [removeElement, get_bind, hel]
  rw [bind_ok (dropFrom_loop eid _ (ho.nodup _) s ?_), modify_apply]
  · simp only [rmSt]
    congr 2
    funext n
    by_cases hn : n ∈ el.nodes
    · rw [if_pos ((ho.mem _ _).2 (List.mem_toFinset.2 hn))]
    · rw [if_neg (fun h => hn (List.mem_toFinset.1 ((ho.mem _ _).1 h)))]
      refine (Finset.erase_eq_of_notMem fun h => ?_).symm
      obtain ⟨el', h1, h2⟩ := (hs n eid).1 h
      rw [hel] at h1; cases h1; exact hn h2
  · intro n hn
    exact (hs n eid).2 ⟨el, hel, List.mem_toFinset.1 ((ho.mem _ _).1 hn)⟩

theorem removeElement_none {s : St P} {eid : Nat} (h : look s.elements eid = none) :
    removeElement ord eid s = (.error .keyError, s) := by
  simp only [removeElement, get_bind, h, fail_apply]

theorem look_rmSt (s : St P) (eid e : Nat) :
    look (rmSt s eid).elements e = if e = eid then none else look s.elements e := look_del _ _ _

theorem good_rmSt {s : St P} (hs : Good s) (eid : Nat) : Good (rmSt s eid) where
  keys := nodup_del hs.keys eid
  nkeys := hs.nkeys
  incid := by
    intro n e
    rw [look_rmSt]
    simp only [rmSt, Finset.mem_erase, hs.incid n e]
    by_cases h : e = eid <;> simp [h]
  elMax := by
    intro e el h
    rw [look_rmSt] at h
    split at h
    · simp at h
    · exact hs.elMax e el h
  nodeMax := hs.nodeMax
  exist := by
    intro e el h
    rw [look_rmSt] at h
    split at h
    · simp at h
    · exact hs.exist e el h

/-- State after adding an element. -/
def addSt (s : St P) (ele : Elem) : St P :=
  { s with
    maxEl := s.maxEl + 1
    elements := put s.elements (s.maxEl + 1) ele
    nodeEls := fun n => if n ∈ ele.nodes then insert (s.maxEl + 1) (s.nodeEls n) else s.nodeEls n
    modified := insert (s.maxEl + 1) s.modified }

theorem look_addSt (s : St P) (ele : Elem) (e : Nat) :
    look (addSt s ele).elements e = if e = s.maxEl + 1 then some ele else look s.elements e := look_put _ _ _ _

theorem good_addSt {s : St P} (hs : Good s) {ele : Elem} (he : ∀ n ∈ ele.nodes, (look s.nodes n).isSome) :
    Good (addSt s ele) where
  keys := nodup_put hs.keys _ _
  nkeys := hs.nkeys
  incid := by
    intro n e
    rw [look_addSt]
    have hf := hs.fresh (Nat.lt_succ_self s.maxEl)
    by_cases h : e = s.maxEl + 1
    · subst h
      have : s.maxEl + 1 ∉ s.nodeEls n := fun hc => by
        obtain ⟨el, h1, _⟩ := (hs.incid n _).1 hc
        rw [hf] at h1; cases h1
      by_cases hn : n ∈ ele.nodes <;> simp [addSt, hn, this]
    · by_cases hn : n ∈ ele.nodes <;> simp [addSt, hn, h, hs.incid n e]
  elMax := by
    intro e el h
    rw [look_addSt] at h
    show e ≤ s.maxEl + 1
    split at h
    · omega
    · have := hs.elMax e el h; omega
  nodeMax := hs.nodeMax
  exist := by
    intro e el h
    rw [look_addSt] at h
    split at h
    · cases h; exact he
    · exact hs.exist e el h

/-- What `is_duplicate_el` finds. -/
theorem isDuplicate_eq (ho : OrdOk ord) {s : St P} (hs : Consistent s) (ty : Nat) {ns : List Nat} (hn : ns ≠ []) :
    ∃ l, isDuplicate ord ty ns s = (.ok l, s) ∧ l.Nodup ∧
      ∀ e, e ∈ l ↔ ∃ el, look s.elements e = some el ∧ el.type = ty ∧ ∀ n ∈ ns, n ∈ el.nodes := by
  obtain ⟨l, h1, h2, h3⟩ := common_eq ho hs hn
  refine ⟨l.filter fun eid => (look s.elements eid).map Elem.type = some ty, ?_, h2.filter _, fun e => ?_⟩
  · simp only [isDuplicate]
    rw [bind_ok h1, get_bind, pure_apply]
  · simp only [List.mem_filter, h3, decide_eq_true_eq, Option.map_eq_some_iff]
    constructor
    · rintro ⟨⟨el, h, h'⟩, el', h'', ht⟩
      rw [h] at h''; cases h''
      exact ⟨el, h, ht, h'⟩
    · rintro ⟨el, h, ht, h'⟩
      exact ⟨⟨el, h, h'⟩, el, h, ht⟩

/-- `add_element` either raises, or finds a duplicate, or adds the element under the next id. -/
theorem addElement_cases (ho : OrdOk ord) {s : St P} (hs : Consistent s) (ele : Elem) :
    (addElement ord ele s = (.error .keyError, s) ∧
      ¬ ((∀ n ∈ ele.nodes, (look s.nodes n).isSome) ∧ 1 ≤ ele.nodes.length ∧ ele.nodes.length ≤ 4)) ∨
    ((∀ n ∈ ele.nodes, (look s.nodes n).isSome) ∧ 1 ≤ ele.nodes.length ∧ ele.nodes.length ≤ 4 ∧
      ((addElement ord ele s = (.ok none, s) ∧
          ∃ e el, look s.elements e = some el ∧ el.type = ele.type ∧ ∀ n ∈ ele.nodes, n ∈ el.nodes) ∨
       (addElement ord ele s = (.ok (some (s.maxEl + 1)), addSt s ele) ∧
          ∀ e el, look s.elements e = some el → el.type = ele.type → ¬ ∀ n ∈ ele.nodes, n ∈ el.nodes))) := by
  by_cases h : (∀ n ∈ ele.nodes, (look s.nodes n).isSome) ∧ 1 ≤ ele.nodes.length ∧ ele.nodes.length ≤ 4
  · right
    refine ⟨h.1, h.2.1, h.2.2, ?_⟩
    have hne : ele.nodes ≠ [] := by
      intro hc; rw [hc] at h; simp at h
    obtain ⟨l, h1, _, h3⟩ := isDuplicate_eq ho hs ele.type hne
    have hrun : addElement ord ele s = (if l ≠ [] then (.ok none, s) else (.ok (some (s.maxEl + 1)), addSt s ele)) := by
      simp only [addElement]
      rw [bind_ok (mkElement_ok h.1 h.2.1 h.2.2), bind_ok h1]
      by_cases hl : l ≠ []
      · rw [if_pos hl, if_pos hl]; rfl
      · rw [if_neg hl, if_neg hl]; rfl
    by_cases hl : l ≠ []
    · left
      rw [if_pos hl] at hrun
      obtain ⟨e, he⟩ := List.exists_mem_of_ne_nil l hl
      obtain ⟨el, a, b, c⟩ := (h3 e).1 he
      exact ⟨hrun, e, el, a, b, c⟩
    · right
      rw [if_neg hl] at hrun
      refine ⟨hrun, fun e el a b c => ?_⟩
      have := (h3 e).2 ⟨el, a, b, c⟩
      rw [not_not.1 hl] at this; simp at this
  · left
    refine ⟨?_, h⟩
    rcases hm : mkElement ele.nodes s with ⟨r, s1⟩
    cases r with
    | ok ps => exact absurd (let x := mkElement_eq_ok hm; ⟨x.2.1, x.2.2.1, x.2.2.2.1⟩) h
    | error er =>
      have hs1 : s1 = s := by have := mkElement_state ele.nodes s; rw [hm] at this; exact this
      subst hs1
      have her : er = .keyError := by
        simp only [mkElement, get_bind] at hm
        split at hm
        · simp [fail_apply] at hm; exact hm.symm
        · split at hm
          · simp [fail_apply] at hm; exact hm.symm
          · simp [pure_apply] at hm
      subst her
      simp only [addElement]
      rw [bind_err hm]

/-- State after adding a node. -/
def addNodeSt (s : St P) (p : P) : St P :=
  { s with
    maxNode := s.maxNode + 1
    nodes := put s.nodes (s.maxNode + 1) p
    nodeEls := Function.update s.nodeEls (s.maxNode + 1) ∅ }

theorem addNode_eq (p : P) (s : St P) : addNode p s = (.ok (s.maxNode + 1), addNodeSt s p) := rfl

theorem good_addNodeSt {s : St P} (hs : Good s) (p : P) : Good (addNodeSt s p) where
  keys := hs.keys
  nkeys := nodup_put hs.nkeys _ _
  incid := by
    intro n e
    show e ∈ Function.update s.nodeEls (s.maxNode + 1) ∅ n ↔ _
    by_cases hn : n = s.maxNode + 1
    · subst hn
      rw [Function.update_self]
      simp only [Finset.notMem_empty, false_iff, not_exists, not_and]
      intro el h hc
      have := hs.exist e el h _ hc
      rw [hs.freshNode (Nat.lt_succ_self _)] at this
      simp at this
    · rw [Function.update_of_ne hn]; exact hs.incid n e
  elMax := hs.elMax
  nodeMax := by
    intro n q h
    have h' : look (put s.nodes (s.maxNode + 1) p) n = some q := h
    rw [look_put] at h'
    show n ≤ s.maxNode + 1
    split at h'
    · omega
    · have := hs.nodeMax n q h'; omega
  exist := by
    intro e el h n hn
    show (look (put s.nodes (s.maxNode + 1) p) n).isSome
    rw [look_put]
    split
    · rfl
    · exact hs.exist e el h n hn

/-- State with a node put at a new position. -/
def putSt (s : St P) (nid : Nat) (p : P) : St P := { s with nodes := put s.nodes nid p }

theorem good_putSt {s : St P} (hs : Good s) {nid : Nat} (h : nid ≤ s.maxNode) (p : P) : Good (putSt s nid p) where
  keys := hs.keys
  nkeys := nodup_put hs.nkeys _ _
  incid := hs.incid
  elMax := hs.elMax
  nodeMax := by
    intro n q hq
    have h' : look (put s.nodes nid p) n = some q := hq
    rw [look_put] at h'
    show n ≤ s.maxNode
    split at h'
    · omega
    · exact hs.nodeMax n q h'
  exist := by
    intro e el h n hn
    show (look (put s.nodes nid p) n).isSome
    rw [look_put]
    split
    · rfl
    · exact hs.exist e el h n hn

theorem good_modified {s : St P} (hs : Good s) (m : Finset Nat) : Good { s with modified := m } :=
  ⟨hs.keys, hs.nkeys, hs.incid, hs.elMax, hs.nodeMax, hs.exist⟩

/-- State after moving a node. -/
def moveSt (s : St P) (nid : Nat) (p : P) : St P :=
  { s with
    nodes := put s.nodes nid p
    modified := s.modified ∪ s.nodeEls nid }

/-- The loop building the elements of a node changes nothing. -/
theorem build_state (l : List Nat) (s : St P) :
    (forActive l buildEl s).2 = s := by
  refine pres_forActive (I := fun t => t = s) ?_ s rfl
  rintro e - t rfl -
  simp only [buildEl, get_bind]
  cases look t.elements e with
  | none => rfl
  | some el =>
    show (((mkElement el.nodes) >>= fun _ => pure ()) t).2 = t
    have h := mkElement_state el.nodes t
    rcases hm : mkElement el.nodes t with ⟨r, t1⟩
    rw [hm] at h
    cases r with
    | ok a => rw [bind_ok hm]; exact h
    | error e => rw [bind_err hm]; exact h

/-- `move_node` finishes, or it raises and at most the position has changed. -/
theorem moveNode_cases (nid : Nat) (p : P) (s : St P) :
    moveNode ord nid p s = (.ok (), moveSt s nid p) ∨
      ∃ e, moveNode ord nid p s = (.error e, s) ∨ moveNode ord nid p s = (.error e, putSt s nid p) := by
  simp only [moveNode, get_bind]
  have h := build_state (ord (s.nodeEls nid)) s
  rcases hm : forActive (ord (s.nodeEls nid)) buildEl s with ⟨r, s1⟩
  rw [hm] at h
  cases r with
  | error e =>
    simp only at h
    right; exact ⟨e, Or.inl (by rw [bind_err hm, h])⟩
  | ok u =>
    simp only at h
    subst h
    rw [bind_ok hm, modify_bind]
    have h := build_state (ord (s1.nodeEls nid)) (putSt s1 nid p)
    rcases hm2 : forActive (ord (s1.nodeEls nid)) buildEl (putSt s1 nid p) with ⟨r, s2⟩
    rw [hm2] at h
    simp only at h
    subst h
    cases r with
    | error e => right; exact ⟨e, Or.inr (bind_err hm2)⟩
    | ok u => left; exact (bind_ok hm2).trans rfl

/-- All elements are points, lines, triangles and tetrahedra. -/
def Simplices (s : St P) : Prop := ∀ e el, look s.elements e = some el → 1 ≤ el.nodes.length ∧ el.nodes.length ≤ 4

theorem forEach_ok {l : List α} {f : α → M P Unit} {s : St P} (h : ∀ a ∈ l, f a s = (.ok (), s)) :
    forEach l f s = (.ok (), s) := by
  induction l with
  | nil => rfl
  | cons a l ih => simp only [forEach]; rw [bind_ok (h a (by simp))]; exact ih fun b hb => h b (by simp [hb])

theorem build_ok {s : St P} (hs : Good s) (hq : Simplices s) (l : List Nat) :
    forActive l buildEl s = (.ok (), s) := by
  refine forEach_ok fun e _ => ?_
  rw [get_bind]
  rcases hl : look s.elements e with _ | el
  · rfl
  · rw [if_pos (by rfl)]
    simp only [buildEl, get_bind, hl]
    show ((mkElement el.nodes) >>= fun _ => pure ()) s = _
    rw [bind_ok (mkElement_ok (hs.exist e el hl) (hq e el hl).1 (hq e el hl).2)]
    rfl

/-- On a mesh of simplices moving a known node does not raise. -/
theorem moveNode_eq {s : St P} (hs : Good s) (hq : Simplices s) {nid : Nat} (hn : nid ≤ s.maxNode) (p : P) :
    moveNode ord nid p s = (.ok (), moveSt s nid p) := by
  simp only [moveNode, get_bind]
  rw [bind_ok (build_ok hs hq _), modify_bind]
  have := build_ok (s := putSt s nid p) (good_putSt hs hn p) hq (ord (s.nodeEls nid))
  exact (bind_ok this).trans rfl

end Verif.Heal
