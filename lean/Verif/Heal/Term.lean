import Verif.Heal.Merge
import Mathlib.Data.Prod.Lex
import Mathlib.Order.WellFounded

/-!
C33: the heal loop ends, for every outcome of the geometric checks and every iteration order of sets.
-/
namespace Verif.Heal

variable {P : Type} {ord : Finset Nat → List Nat}

/-! ### Cost of the operations -/

/-- Two for every element, one for every node. -/
def weight (s : St P) : Int := 2 * (s.elements.length : Int) + (s.nodes.length : Int)

/-- From `s` to `s'` the element counter grew, or it stayed and the weight grew by at most `k`. -/
def Cost (k : Int) (s s' : St P) : Prop :=
  s.maxEl < s'.maxEl ∨ (s.maxEl = s'.maxEl ∧ weight s' ≤ weight s + k)

theorem Cost.refl (s : St P) : Cost 0 s s := Or.inr ⟨rfl, by omega⟩

theorem Cost.trans {k j : Int} {s s1 s2 : St P} (h : Cost k s s1) (h' : Cost j s1 s2) : Cost (k + j) s s2 := by
  rcases h with h | ⟨h, w⟩ <;> rcases h' with h' | ⟨h', w'⟩
  · left; omega
  · left; omega
  · left; omega
  · right; constructor <;> omega

theorem Cost.mono {k j : Int} {s s' : St P} (h : Cost k s s') (hk : k ≤ j) : Cost j s s' := by
  rcases h with h | ⟨h, w⟩
  · exact Or.inl h
  · exact Or.inr ⟨h, by omega⟩

/-- If `m` finishes from a state with `I`, then `I` holds again and the cost is at most `k`. -/
def CostM {α : Type} (I : St P → Prop) (k : Int) (m : M P α) : Prop :=
  ∀ s, I s → ∀ a s', m s = (.ok a, s') → I s' ∧ Cost k s s'

section
variable {α β : Type} {I : St P → Prop} {k j : Int}

theorem cost_pure (a : α) : CostM I 0 (pure a : M P α) := by
  intro s hs b s' h
  cases h
  exact ⟨hs, Cost.refl s⟩

theorem cost_fail (e : Err) : CostM I k (fail e : M P α) := by
  intro s hs b s' h
  simp [fail_apply] at h

theorem cost_bind {m : M P α} {f : α → M P β} (hm : CostM I k m) (hf : ∀ a, CostM I j (f a)) :
    CostM I (k + j) (m >>= f) := by
  intro s hs b s' h
  obtain ⟨a, s1, h1, h2⟩ := bind_eq_ok h
  obtain ⟨i1, c1⟩ := hm s hs a s1 h1
  obtain ⟨i2, c2⟩ := hf a s1 i1 b s' h2
  exact ⟨i2, c1.trans c2⟩

theorem cost_mono {m : M P α} (h : CostM I k m) (hk : k ≤ j) : CostM I j m := fun s hs a s' e =>
  ⟨(h s hs a s' e).1, (h s hs a s' e).2.mono hk⟩

theorem cost_bind0 {m : M P α} {f : α → M P β} (hm : CostM I 0 m) (hf : ∀ a, CostM I 0 (f a)) :
    CostM I 0 (m >>= f) := cost_mono (cost_bind hm hf) (by omega)

theorem cost_get {f : St P → M P β} (h : ∀ s, I s → ∀ b s', f s s = (.ok b, s') → I s' ∧ Cost k s s') :
    CostM I k ((get : M P (St P)) >>= f) := fun s hs b s' e => h s hs b s' e

theorem cost_forEach {l : List α} {f : α → M P Unit} (h : ∀ a ∈ l, CostM I 0 (f a)) : CostM I 0 (forEach l f) := by
  induction l with
  | nil => exact cost_pure ()
  | cons a l ih => exact cost_bind0 (h a (by simp)) fun _ => ih fun b hb => h b (by simp [hb])

theorem cost_forActive {l : List Nat} {f : Nat → M P Unit} (h : ∀ e ∈ l, CostM I 0 (f e)) :
    CostM I 0 (forActive l f) := by
  refine cost_forEach fun e he => cost_get fun s hs b s' hb => ?_
  split at hb
  · exact h e he s hs b s' hb
  · exact cost_pure () s hs b s' hb

theorem cost_read {m : M P α} (h : ∀ s, (m s).2 = s) : CostM I 0 m := by
  intro s hs a s' e
  have := h s
  rw [e] at this
  simp only at this
  subst this
  exact ⟨hs, Cost.refl _⟩

end

/-- Well formed, the nodes of `K` are there. -/
structure Here (K : List Nat) (s : St P) : Prop where
  good : Good s
  here : ∀ n ∈ K, (look s.nodes n).isSome

variable {K : List Nat}

theorem weight_rm {s : St P} {e : Nat} (h : (look s.elements e).isSome) : weight (rmSt s e) ≤ weight s - 2 := by
  have := length_del_lt h
  simp only [weight, rmSt]
  omega

theorem cost_remove (ho : OrdOk ord) (eid : Nat) : CostM (Here (P := P) K) (-2) (removeElement ord eid) := by
  intro s hs a s' h
  rcases hl : look s.elements eid with _ | el
  · rw [removeElement_none hl] at h; simp at h
  · rw [removeElement_eq ho hs.good.incid hl] at h
    cases h
    exact ⟨⟨good_rmSt hs.good eid, hs.here⟩, Or.inr ⟨rfl, by have := weight_rm (s := s) (e := eid) (by rw [hl]; rfl); omega⟩⟩

theorem cost_remove0 (ho : OrdOk ord) (eid : Nat) : CostM (Here (P := P) K) 0 (removeElement ord eid) :=
  cost_mono (cost_remove ho eid) (by omega)

theorem cost_add (ho : OrdOk ord) (ele : Elem) : CostM (Here (P := P) K) 0 (addElement ord ele) := by
  intro s hs a s' h
  rcases addElement_cases ho hs.good.incid ele with x | ⟨x1, _, _, x | x⟩
  · rw [x.1] at h; simp at h
  · rw [x.1] at h; cases h; exact ⟨hs, Cost.refl _⟩
  · rw [x.1] at h; cases h
    exact ⟨⟨good_addSt hs.good x1, hs.here⟩, Or.inl (Nat.lt_succ_self _)⟩

theorem weight_put (s : St P) (nid : Nat) (p : P) :
    weight (putSt s nid p) = weight s + if (look s.nodes nid).isSome then 0 else 1 := by
  have := length_put s.nodes nid p
  simp only [weight, putSt]
  split <;> rename_i h
  · rw [if_pos h] at this; omega
  · rw [if_neg h] at this; omega

theorem here_put {s : St P} (hs : Here K s) {nid : Nat} (h : nid ≤ s.maxNode) (p : P) : Here K (putSt s nid p) := by
  refine ⟨good_putSt hs.good h p, fun n hn => ?_⟩
  show (look (put s.nodes nid p) n).isSome
  rw [look_put]
  split
  · rfl
  · exact hs.here n hn

/-- Moving a node costs nothing if it is there, and one otherwise. -/
theorem move_cost {s s' : St P} (hs : Here K s) {nid : Nat} (hn : nid ≤ s.maxNode) {p : P} {u : Unit}
    (h : moveNode ord nid p s = (.ok u, s')) :
    Here K s' ∧ (look s'.nodes nid).isSome ∧ Cost (if (look s.nodes nid).isSome then 0 else 1) s s' := by
  rcases moveNode_cases (ord := ord) nid p s with x | ⟨e, x | x⟩
  · rw [x] at h; cases h
    have h1 := here_put hs hn p
    refine ⟨⟨good_modified h1.good _, h1.here⟩, ?_, Or.inr ⟨rfl, le_of_eq (weight_put s nid p)⟩⟩
    show (look (put s.nodes nid p) nid).isSome
    rw [look_put, if_pos rfl]; rfl
  · rw [x] at h; simp at h
  · rw [x] at h; simp at h

theorem cost_move {nid : Nat} (hn : nid ∈ K) (p : P) : CostM (Here K) 0 (moveNode ord nid p) := by
  intro s hs a s' h
  have hh := hs.here nid hn
  obtain ⟨q, hq⟩ := Option.isSome_iff_exists.1 hh
  obtain ⟨x, _, y⟩ := move_cost hs (hs.good.nodeMax nid q hq) h
  rw [if_pos hh] at y
  exact ⟨x, y⟩

theorem cost_reset : CostM (Here (P := P) K) 0 (resetModified ord) := by
  intro s hs a s' h
  cases h
  exact ⟨⟨good_modified hs.good ∅, hs.here⟩, Or.inr ⟨rfl, by show weight s ≤ _; omega⟩⟩

theorem cost_common (ns : List Nat) {I : St P → Prop} : CostM I 0 (common ord ns) := cost_read fun s => common_state ns s

theorem removeNode_cost {s s' : St P} {nid : Nat} {u : Unit} (hs : Good s) (h : removeNode nid s = (.ok u, s')) :
    Good s' ∧ Cost (-1) s s' := by
  have hg := (pres_removeNode (s0 := s) (K := []) nid s (Since.refl hs)).good
  rw [h] at hg
  refine ⟨hg, ?_⟩
  simp only [removeNode, get_bind] at h
  split at h
  · simp [fail_apply] at h
  · split at h
    · simp [fail_apply] at h
    · rename_i h2
      cases h
      have : (look s.nodes nid).isSome := by
        cases hh : look s.nodes nid
        · rw [hh] at h2; simp at h2
        · rfl
      have := length_del_lt this
      refine Or.inr ⟨rfl, ?_⟩
      show 2 * (s.elements.length : Int) + ((del s.nodes nid).length : Int) ≤ weight s + -1
      simp only [weight]
      omega

/-- A finished merge removes a node, and the elements with both nodes. -/
theorem merge_cost (ho : OrdOk ord) {avg : P → P → P} {rm tgt r : Nat} {s s' : St P} (hs : Good s)
    (h : mergeNode ord avg rm tgt s = (.ok r, s')) :
    Good s' ∧ Cost (-1) s s' ∧
      ∀ e el, look s.elements e = some el → rm ∈ el.nodes → tgt ∈ el.nodes →
        Cost (-3) s s' ∧ look s'.elements e = none := by
  have hsince := pres_merge (s0 := s) (K := []) ho avg rm tgt s (Since.refl hs)
  rw [h] at hsince
  refine ⟨hsince.good, ?_⟩
  unfold mergeNode at h
  split at h
  · simp [fail_apply] at h
  obtain ⟨l, t, h1, hA⟩ := bind_eq_ok h
  clear h
  have ht : t = s := by have := common_state (ord := ord) [rm, tgt] s; rw [h1] at this; exact this
  rw [ht] at h1 hA
  obtain ⟨l', hl', -, hlm⟩ := common_eq (ord := ord) ho hs.incid (ns := [rm, tgt]) (by simp)
  rw [h1] at hl'
  simp only [Prod.mk.injEq, Except.ok.injEq, and_true] at hl'
  subst hl'
  obtain ⟨s1, r1, g1, n1, e1, m1, -, len1, k1⟩ := removeAll_eq ho l hs
  rw [bind_ok r1, get_bind] at hA
  have c1 : Cost 0 s s1 := Or.inr ⟨e1.symm, by simp only [weight, n1]; omega⟩
  have c1' : ∀ e el, look s.elements e = some el → rm ∈ el.nodes → tgt ∈ el.nodes → Cost (-2) s s1 := by
    intro e el he hr hte
    have hel : e ∈ l := (hlm e).2 ⟨el, he, by simp [hr, hte]⟩
    refine Or.inr ⟨e1.symm, ?_⟩
    have hlt : s1.elements.length < s.elements.length := by
      have hsub : (s1.elements.map Prod.fst) ⊆ ((del s.elements e).map Prod.fst) := by
        intro x hx
        have hx1 := (look_isSome_iff _ _).2 hx
        rw [k1] at hx1
        refine (look_isSome_iff _ _).1 ?_
        rw [look_del]
        split at hx1
        · simp at hx1
        · rename_i hxl
          rw [if_neg (fun hc => hxl (by rw [hc]; exact hel))]
          exact hx1
      have := (g1.keys.subperm hsub).length_le
      rw [List.length_map, List.length_map] at this
      exact lt_of_le_of_lt this (length_del_lt (by rw [he]; rfl))
    simp only [weight, n1]
    omega
  rcases ha : look s1.nodes rm with _ | a
  · rw [ha] at hA; simp [fail_apply] at hA
  rcases hb : look s1.nodes tgt with _ | b
  · rw [ha, hb] at hA; simp [fail_apply] at hA
  simp only [ha, hb] at hA
  obtain ⟨u, s2, h2, hB⟩ := bind_eq_ok hA
  obtain ⟨i2, _, c2⟩ := move_cost (K := []) ⟨g1, by simp⟩ (g1.nodeMax tgt b hb) h2
  rw [if_pos (by rw [hb]; rfl)] at c2
  have hloop : CostM (Here (P := P) []) 0 (do
      let l ← common ord [rm]
      forActive l fun eid => do
        match look (← get).elements eid with
        | none => fail .keyError
        | some el =>
          removeElement ord eid
          let _ ← addElement ord { el with nodes := subst rm tgt el.nodes }
          pure ()) := by
    refine cost_bind0 (cost_common _) fun l => cost_forActive fun e _ => cost_get fun s hs b s' hb => ?_
    rcases hl : look s.elements e with _ | el
    · rw [hl] at hb; simp [fail_apply] at hb
    · rw [hl] at hb
      exact cost_bind0 (cost_remove0 ho e) (fun _ => cost_bind0 (cost_add ho _) fun _ => cost_pure _) s hs b s' hb
  obtain ⟨l2, t2, h3, hC⟩ := bind_eq_ok hB
  obtain ⟨u2, s3, h4, hD⟩ := bind_eq_ok hC
  obtain ⟨i3, c3⟩ := hloop s2 i2 u2 s3 ((bind_ok h3).trans h4)
  obtain ⟨u3, s4, h5, hE⟩ := bind_eq_ok hD
  obtain ⟨_, c4⟩ := removeNode_cost i3.good h5
  cases hE
  refine ⟨((c1.trans c2).trans (c3.trans c4)).mono (by omega), fun e el he hr hte => ?_⟩
  refine ⟨(((c1' e el he hr hte).trans c2).trans (c3.trans c4)).mono (by omega), ?_⟩
  rcases hx : look s'.elements e with _ | el'
  · rfl
  · -- it was removed, and its id is not used again
    have hel : e ∈ l := (hlm e).2 ⟨el, he, by simp [hr, hte]⟩
    have hs1e : look s1.elements e = none := by rw [k1, if_pos hel]
    have hpres : Since s1 [] s' := by
      have hb0 : Since s1 [] s2 := by
        have := move_since (ord := ord) (Since.refl g1) (nid := tgt) (Or.inl (by rw [hb]; rfl)) (avg a b)
        rw [h2] at this; exact this
      have hp : Pres (Since s1 []) (do
          let l ← common ord [rm]
          forActive l fun eid => do
            match look (← get).elements eid with
            | none => fail .keyError
            | some el =>
              removeElement ord eid
              let _ ← addElement ord { el with nodes := subst rm tgt el.nodes }
              pure ()) := by
        refine pres_bind (pres_common _) fun l => pres_forActive fun e _ t ht _ => ?_
        rw [get_bind]
        rcases hl : look t.elements e with _ | el
        · exact ht
        · exact pres_bind (pres_remove ho e) (fun _ => pres_bind (pres_add ho _) fun _ => pres_pure _) t ht
      have hb1 := hp s2 hb0
      rw [show _ = (Except.ok u2, s3) from (bind_ok h3).trans h4] at hb1
      have hb2 := pres_removeNode (s0 := s1) (K := []) rm s3 hb1
      rw [h5] at hb2
      exact hb2
    rcases hpres.els e el' hx with y | y
    · rw [hs1e] at y; cases y
    · have := hs.elMax e el he
      omega

/-! ### Cost of the checks -/

theorem cost_forEach_strict {α : Type} {I : St P → Prop} {k : Int} {l : List α} {f : α → M P Unit}
    (h : ∀ a ∈ l, CostM I 0 (f a)) {x : α} (hx : x ∈ l) (hk : CostM I k (f x)) : CostM I k (forEach l f) := by
  induction l with
  | nil => simp at hx
  | cons a l ih =>
    have hl : CostM I 0 (forEach l f) := cost_forEach fun b hb => h b (by simp [hb])
    rcases List.mem_cons.1 hx with rfl | hx
    · exact cost_mono (cost_bind hk fun _ => hl) (by omega)
    · exact cost_mono (cost_bind (h a (by simp)) fun _ => ih (fun b hb => h b (by simp [hb])) hx) (by omega)

theorem cost_split (ho : OrdOk ord) (eid : Nat) (olds : List Nat) (new : Nat) (w : Bool) :
    CostM (Here (P := P) K) 0 (splitElement ord eid olds new w) := by
  refine cost_get fun s hs b s' hb => ?_
  rcases hl : look s.elements eid with _ | el
  · rw [hl] at hb; simp [fail_apply] at hb
  · rw [hl] at hb
    simp only at hb
    split at hb
    · exact cost_pure () s hs b s' hb
    · refine cost_bind0 (cost_remove0 ho eid) (fun _ => cost_forEach fun o _ => ?_) s hs b s' hb
      split
      · exact cost_bind0 (cost_add ho _) fun _ => cost_pure _
      · exact cost_fail _

theorem dupl_cost (ho : OrdOk ord) {eid : Nat} {ns m : List Nat} {s s' : St P} (hs : Here K s)
    (h : checkDuplNodes ord eid ns s = (.ok m, s')) :
    (s' = s ∧ m = []) ∨ (Here K s' ∧ Cost (-2) s s' ∧ look s'.elements eid = none) := by
  simp only [checkDuplNodes] at h
  rcases hf : (edges ns.length).find? (fun e => nth ns e.1 == nth ns e.2) with _ | e
  · rw [hf] at h; cases h; exact Or.inl ⟨rfl, rfl⟩
  · rw [hf] at h
    right
    obtain ⟨u, s1, h1, h2⟩ := bind_eq_ok h
    obtain ⟨i, c⟩ := cost_remove ho eid s hs u s1 h1
    have hn : look s1.elements eid = none := by
      rcases hl : look s.elements eid with _ | el
      · rw [removeElement_none hl] at h1; simp at h1
      · rw [removeElement_eq ho hs.good.incid hl] at h1
        cases h1
        rw [look_rmSt, if_pos rfl]
    cases h2
    exact ⟨i, c, hn⟩

theorem dupEl_cost (ho : OrdOk ord) {eid ty : Nat} {ns m : List Nat} {s s' : St P} (hs : Good s)
    (h : checkDuplicateElement ord eid ty ns s = (.ok m, s')) :
    (s' = s ∧ m = []) ∨ (Good s' ∧ Cost (-2) s s' ∧ m ≠ []) := by
  unfold checkDuplicateElement at h
  obtain ⟨l, s1, h1, h2⟩ := bind_eq_ok h
  have hs1 : s1 = s := by
    have := pres_isDuplicate (ord := ord) (I := fun t => t = s) ty ns s rfl
    rw [h1] at this; exact this
  subst hs1
  split at h2
  · rename_i hlen
    right
    have hne : ns ≠ [] := by
      rintro rfl
      unfold isDuplicate at h1
      rw [bind_err (m := common ord []) (e := .typeError) (s' := s1) rfl] at h1
      simp at h1
    obtain ⟨l', hl', nd, _⟩ := isDuplicate_eq ho hs.incid ty hne
    rw [h1] at hl'
    simp only [Prod.mk.injEq, Except.ok.injEq, and_true] at hl'
    subst hl'
    have hx : ∃ x ∈ l, x ≠ eid := by
      by_contra hc
      simp only [not_exists, not_and, not_not] at hc
      have hsub : l ⊆ [eid] := fun x hx => by simp [hc x hx]
      have := (nd.subperm hsub).length_le
      simp at this
      omega
    obtain ⟨x, hxl, hxe⟩ := hx
    obtain ⟨u, s2, h3, h4⟩ := bind_eq_ok h2
    have hc : CostM (Here (P := P) []) (-2) (forEach l fun x => if x ≠ eid then removeElement ord x else pure ()) := by
      refine cost_forEach_strict (fun a _ => ?_) hxl ?_
      · split
        · exact cost_remove0 ho a
        · exact cost_pure _
      · rw [if_pos hxe]; exact cost_remove ho x
    obtain ⟨i, c⟩ := hc s1 ⟨hs, by simp⟩ u s2 h3
    cases h4
    exact ⟨i.good, c, by simp⟩
  · cases h2; exact Or.inl ⟨rfl, rfl⟩

theorem edgeIds_mem {ns : List Nat} {i : Nat} (hne : (edgeIds ns i).1 ≠ (edgeIds ns i).2) :
    (edgeIds ns i).1 ∈ ns ∧ (edgeIds ns i).2 ∈ ns := by
  have key : ∀ n : Nat, ∀ e ∈ edges n, e.1 < n ∧ e.2 < n := by
    intro n e he
    have : n = 2 ∨ n = 3 ∨ n = 4 ∨ (n ≠ 2 ∧ n ≠ 3 ∧ n ≠ 4) := by omega
    rcases this with rfl | rfl | rfl | ⟨h2, h3, h4⟩
    · revert e; decide
    · revert e; decide
    · revert e; decide
    · have : edges n = [] := by
        unfold edges; split <;> simp_all
      rw [this] at he; simp at he
  by_cases hi : i < (edges ns.length).length
  · have hm : (edges ns.length).getD i (0, 0) ∈ edges ns.length := by
      simp [List.getD_eq_getElem?_getD, List.getElem?_eq_getElem hi]
    have := key _ _ hm
    exact ⟨nth_mem this.1, nth_mem this.2⟩
  · exfalso; apply hne
    have : (edges ns.length).getD i (0, 0) = (0, 0) := by
      rw [List.getD_eq_getElem?_getD, List.getElem?_eq_none (by omega)]; rfl
    simp only [edgeIds, this]

/-- A finished merge had two different nodes. -/
theorem merge_ne {avg : P → P → P} {rm tgt r : Nat} {s s' : St P} (h : mergeNode ord avg rm tgt s = (.ok r, s')) :
    rm ≠ tgt := by
  intro hc
  unfold mergeNode at h
  rw [if_pos hc] at h
  simp [fail_apply] at h

theorem flatTetra_none (ho : OrdOk ord) {g : Geo P} {eid : Nat} {ns m : List Nat} {ps : List P} {s s' : St P}
    (hl : look s.elements eid = none) (h : checkFlatTetra ord g eid ns ps s = (.ok m, s')) : s' = s ∧ m = [] := by
  have hmv : ∀ f : List P, ∀ u s1, forEach (ns.zip f) (fun np => moveNode ord np.1 np.2) s = (.ok u, s1) →
      look s1.elements eid = none := by
    intro f u s1 h1
    have hp : Pres (fun t : St P => look t.elements eid = none) (forEach (ns.zip f) fun np => moveNode ord np.1 np.2) := by
      refine pres_forEach fun np _ t ht => ?_
      rcases moveNode_cases (ord := ord) np.1 np.2 t with x | ⟨e, x | x⟩ <;> rw [x] <;> exact ht
    have := hp s hl
    rw [h1] at this
    exact this
  unfold checkFlatTetra at h
  split at h
  · cases h; exact ⟨rfl, rfl⟩
  rcases hf : g.flat ps with _ | _ | ⟨pos, neg, f, x⟩ | ⟨o, f⟩ <;> rw [hf] at h
  · cases h; exact ⟨rfl, rfl⟩
  · simp [fail_apply] at h
  all_goals
    obtain ⟨u, s1, h1, h2⟩ := bind_eq_ok h
    obtain ⟨u2, s2, h3, _⟩ := bind_eq_ok h2
    rw [removeElement_none (hmv _ _ _ h1)] at h3
    simp at h3

theorem flatTetra_cost (ho : OrdOk ord) {g : Geo P} {eid : Nat} {ns m : List Nat} {ps : List P} {s s' : St P}
    (hs : Here ns s) (h : checkFlatTetra ord g eid ns ps s = (.ok m, s')) :
    (s' = s ∧ m = []) ∨ (Here ns s' ∧ Cost (-1) s s') := by
  have hmv : ∀ f : List P, CostM (Here ns) 0 (forEach (ns.zip f) fun np => moveNode ord np.1 np.2) := fun f =>
    cost_forEach fun np hnp => cost_move (List.of_mem_zip hnp).1 _
  have hadd : ∀ p : P, CostM (Here ns) 1 (addNode p) := by
    intro p t ht a t' h
    rw [addNode_eq] at h
    cases h
    refine ⟨⟨good_addNodeSt ht.good p, fun n hn => ?_⟩, Or.inr ⟨rfl, ?_⟩⟩
    · show (look (put t.nodes (t.maxNode + 1) p) n).isSome
      rw [look_put]
      split
      · rfl
      · exact ht.here n hn
    · have := length_put t.nodes (t.maxNode + 1) p
      show 2 * (t.elements.length : Int) + ((put t.nodes (t.maxNode + 1) p).length : Int) ≤ weight t + 1
      simp only [weight]
      split at this <;> omega
  unfold checkFlatTetra at h
  split at h
  · cases h; exact Or.inl ⟨rfl, rfl⟩
  rcases hf : g.flat ps with _ | _ | ⟨pos, neg, f, x⟩ | ⟨o, f⟩ <;> rw [hf] at h
  · cases h; exact Or.inl ⟨rfl, rfl⟩
  · simp [fail_apply] at h
  · right
    refine cost_mono (k := 0 + (-2 + (1 + (0 + 0)))) (cost_bind (hmv _) fun _ => cost_bind (cost_remove ho eid) fun _ =>
      cost_bind (hadd _) fun new => cost_bind (cost_forEach fun cf _ => ?_) fun _ => cost_reset) (by omega) s hs m s' h
    exact cost_bind0 (cost_common _) fun l => cost_forActive fun e _ => cost_split ho e _ _ _
  · right
    exact cost_mono (k := 0 + (-2 + (0 + (0 + 0)))) (cost_bind (hmv _) fun _ => cost_bind (cost_remove ho eid) fun _ =>
      cost_bind (cost_common _) fun l => cost_bind (cost_forActive fun e _ => cost_split ho e _ _ _) fun _ => cost_reset)
      (by omega) s hs m s' h

/-- The degenerate triangle check: from a state where the nodes are there the cost is at most 0, and -2 if the element is
there; in any case it is at most 1. -/
theorem flatTriangle_cost (ho : OrdOk ord) {g : Geo P} (hg : g.Sane) {ns m : List Nat} {ps : List P} {s s' : St P}
    (hs : Good s) (hb : ∀ n ∈ ns, n ≤ s.maxNode) (h3 : 3 ≤ ns.length) (h4 : ns.length ≤ 4)
    (h : checkFlatTriangle ord g ns ps s = (.ok m, s')) :
    Good s' ∧ Cost 1 s s' ∧ (Here ns s → Cost 0 s s') ∧
      (Here ns s → (∃ eid el, look s.elements eid = some el ∧ el.nodes = ns) → Cost (-2) s s') := by
  unfold checkFlatTriangle at h
  rw [if_neg (by omega)] at h
  set loc := (if ns.length = 4 then faces.getD (g.minFace ps) [] else [0, 1, 2]) with hloc
  have hlocp : loc.length = 3 ∧ ∀ j ∈ loc, j < ns.length := by
    rw [hloc]
    split
    · rename_i h; rw [h]; exact face_lt (hg.minFace ps)
    · refine ⟨rfl, fun j hj => ?_⟩
      simp only [List.mem_cons, List.not_mem_nil, or_false] at hj
      omega
  have htri : ∀ n ∈ loc.map (nth ns), n ∈ ns := by
    intro n hn
    obtain ⟨j, hj, rfl⟩ := List.mem_map.1 hn
    exact nth_mem (hlocp.2 j hj)
  have htne : loc.map (nth ns) ≠ [] := by
    intro hc
    have := congrArg List.length hc
    rw [List.length_map, hlocp.1] at this
    simp at this
  obtain ⟨l, hl, -, hlm⟩ := common_eq (ord := ord) ho hs.incid htne
  obtain ⟨s1, r1, g1, n1, e1, m1, -, len1, k1⟩ := removeAll_eq ho l hs
  simp only at h
  rw [bind_ok hl, bind_ok r1] at h
  have c1 : Cost 0 s s1 := Or.inr ⟨e1.symm, by simp only [weight, n1]; omega⟩
  have c1' : (∃ eid el, look s.elements eid = some el ∧ el.nodes = ns) → Cost (-2) s s1 := by
    rintro ⟨eid, el, he, rfl⟩
    have hel : eid ∈ l := (hlm eid).2 ⟨el, he, htri⟩
    refine Or.inr ⟨e1.symm, ?_⟩
    have hlt : s1.elements.length < s.elements.length := by
      have hsub : (s1.elements.map Prod.fst) ⊆ ((del s.elements eid).map Prod.fst) := by
        intro x hx
        have hx1 := (look_isSome_iff _ _).2 hx
        rw [k1] at hx1
        refine (look_isSome_iff _ _).1 ?_
        rw [look_del]
        split at hx1
        · simp at hx1
        · rename_i hxl
          rw [if_neg (fun hc => hxl (by rw [hc]; exact hel))]
          exact hx1
      have := (g1.keys.subperm hsub).length_le
      rw [List.length_map, List.length_map] at this
      exact lt_of_le_of_lt this (length_del_lt (by rw [he]; rfl))
    simp only [weight, n1]
    omega
  rcases hp : g.proj (loc.filterMap fun i => ps[i]?) with _ | _ | ⟨i, pos⟩ <;> rw [hp] at h
  · simp [fail_apply] at h
  · cases h
    exact ⟨g1, c1.mono (by omega), fun _ => c1, fun _ => c1'⟩
  · have hi := hg.proj _ _ _ hp
    set nid := nth (loc.map (nth ns)) i with hnid
    have hmem : nid ∈ ns := htri _ (nth_mem (by rw [List.length_map, hlocp.1]; exact hi))
    obtain ⟨u, s2, h5, h6⟩ := bind_eq_ok h
    obtain ⟨i2, _, c2⟩ := move_cost (K := []) ⟨g1, by simp⟩ (by rw [m1]; exact hb _ hmem) h5
    have hrest : CostM (Here (P := P) []) 0 (do
        let l ← common ord [(edgeIds (loc.map (nth ns)) i).1, (edgeIds (loc.map (nth ns)) i).2]
        forActive l fun eid => splitElement ord eid
          [(edgeIds (loc.map (nth ns)) i).1, (edgeIds (loc.map (nth ns)) i).2] nid true
        resetModified ord) :=
      cost_bind0 (cost_common _) fun l => cost_bind0 (cost_forActive fun e _ => cost_split ho e _ _ _) fun _ => cost_reset
    obtain ⟨i3, c3⟩ := hrest s2 i2 m s' h6
    have hc2 : Here ns s → Cost 0 s1 s2 := by
      intro hh
      have : (look s1.nodes nid).isSome := by rw [n1]; exact hh.here _ hmem
      rw [if_pos this] at c2
      exact c2
    have hc2' : Cost 1 s1 s2 := c2.mono (by split <;> omega)
    refine ⟨i3.good, ((c1.trans hc2').trans c3).mono (by omega), fun hh => ((c1.trans (hc2 hh)).trans c3).mono (by omega),
      fun hh he => (((c1' he).trans (hc2 hh)).trans c3).mono (by omega)⟩

/-! ### One turn of the loop -/

theorem cost_modified (s : St P) (m : Finset Nat) : Cost 0 s { s with modified := m } :=
  Or.inr ⟨rfl, by show weight s ≤ _; omega⟩

theorem absent_since {s t : St P} (h : Since s [] t) {e : Nat} (he : e ≤ s.maxEl) (hn : look s.elements e = none) :
    look t.elements e = none := by
  rcases hx : look t.elements e with _ | el
  · rfl
  · rcases h.els e el hx with y | y
    · rw [hn] at y; cases y
    · omega

theorem since_of_eq {α : Type} {m : M P α} (hm : ∀ s0 : St P, Pres (Since s0 []) m) {s s' : St P} {a : α} (hs : Good s)
    (h : m s = (.ok a, s')) : Since s [] s' := by
  have := hm s s (Since.refl hs)
  rw [h] at this
  exact this

/-- A turn that does not raise makes progress, or changes nothing but the set of modified elements. -/
theorem healOne_cost (ho : OrdOk ord) {g : Geo P} (hg : g.Sane) {eid : Nat} {m : List Nat} {s s' : St P} (hs : Good s)
    (h : healOne ord g eid s = (.ok m, s')) :
    Cost (-1) s s' ∨ (s' = s ∧ m = []) ∨ (s' = { s with modified := ∅ } ∧ (m = [] ∨ s.modified ≠ ∅)) := by
  simp only [healOne, get_bind] at h
  rcases hl : look s.elements eid with _ | el
  · rw [hl] at h; cases h; exact Or.inr (Or.inl ⟨rfl, rfl⟩)
  rw [hl] at h
  simp only at h
  obtain ⟨ps, t, hm, hA⟩ := bind_eq_ok h
  clear h
  obtain ⟨rfl, _, h1, h4, _⟩ := mkElement_eq_ok hm
  have hid := hs.elMax eid el hl
  have hhere : Here el.nodes t := ⟨hs, hs.exist eid el hl⟩
  -- classes of states between the checks
  let Cls : St P → Prop := fun u => Good u ∧ (∀ n ∈ el.nodes, n ≤ u.maxNode) ∧
    ((u = t ∨ u = { t with modified := ∅ }) ∨ (Here el.nodes u ∧ Cost (-1) t u ∧ look u.elements eid = none) ∨
      (look u.elements eid = none ∧ Cost (-2) t u))
  have hbound : ∀ n ∈ el.nodes, n ≤ t.maxNode := by
    intro n hn
    obtain ⟨q, hq⟩ := Option.isSome_iff_exists.1 (hhere.here n hn)
    exact hs.nodeMax n q hq
  -- repeated nodes
  obtain ⟨m1, s1, hd1, hB⟩ := bind_eq_ok hA
  have hc1 : (s1 = t ∧ m1 = []) ∨ (Here el.nodes s1 ∧ Cost (-2) t s1 ∧ look s1.elements eid = none) :=
    dupl_cost ho hhere hd1
  have hsn1 := since_of_eq (fun _ => pres_dupl ho eid el.nodes) hs hd1
  by_cases hm1 : m1 ≠ []
  · rw [if_pos hm1] at hB
    cases hB
    rcases hc1 with ⟨_, x⟩ | ⟨_, x, _⟩
    · exact absurd x hm1
    · exact Or.inl (x.mono (by omega))
  rw [if_neg hm1] at hB
  -- close nodes
  obtain ⟨m2, s2, hd2, hC⟩ := bind_eq_ok hB
  have hsn2 := since_of_eq (fun _ => pres_degen ho g el.nodes ps) hsn1.good hd2
  have hc2 : Cls s2 ∧ (m2 ≠ [] → Cost (-1) t s2 ∨ (s2 = { t with modified := ∅ } ∧ t.modified ≠ ∅)) := by
    have hb2 : ∀ n ∈ el.nodes, n ≤ s2.maxNode := fun n hn => (hbound n hn).trans (hsn1.node.trans hsn2.node)
    unfold checkDegenNodes at hd2
    split at hd2
    · cases hd2
      refine ⟨⟨hsn1.good, hb2, ?_⟩, fun x => absurd rfl x⟩
      rcases hc1 with ⟨rfl, _⟩ | ⟨x1, x2, x3⟩
      · exact Or.inl (Or.inl rfl)
      · exact Or.inr (Or.inl ⟨x1, x2.mono (by omega), x3⟩)
    · split at hd2
      · simp only at hd2
        obtain ⟨r, u, hu, hd3⟩ := bind_eq_ok hd2
        obtain ⟨gu, cu, cu'⟩ := merge_cost ho hsn1.good hu
        have hnm := edgeIds_mem (merge_ne hu)
        have hsu : Since s1 [] u := since_of_eq (fun _ => pres_merge ho _ _ _) hsn1.good hu
        cases hd3
        have key : look u.elements eid = none ∧ Cost (-2) t u := by
          rcases hc1 with ⟨rfl, _⟩ | ⟨_, x2, x3⟩
          · obtain ⟨y1, y2⟩ := cu' eid el hl hnm.1 hnm.2
            exact ⟨y2, y1.mono (by omega)⟩
          · exact ⟨absent_since hsu (hid.trans hsn1.el) x3, (x2.trans cu).mono (by omega)⟩
        have key2 : Cost (-2) t { u with modified := ∅ } := (key.2.trans (cost_modified u ∅)).mono (by omega)
        exact ⟨⟨hsn2.good, hb2, Or.inr (Or.inr ⟨key.1, key2⟩)⟩, fun _ => Or.inl (key2.mono (by omega))⟩
      · cases hd2
        refine ⟨⟨hsn2.good, hb2, ?_⟩, fun hne => ?_⟩
        · rcases hc1 with ⟨rfl, _⟩ | ⟨x1, x2, x3⟩
          · exact Or.inl (Or.inr rfl)
          · exact Or.inr (Or.inl ⟨⟨hsn2.good, x1.here⟩, (x2.trans (cost_modified s1 ∅)).mono (by omega), x3⟩)
        · rcases hc1 with ⟨rfl, _⟩ | ⟨x1, x2, x3⟩
          · right
            refine ⟨rfl, fun hc => hne ?_⟩
            rw [hc]
            exact List.eq_nil_iff_forall_not_mem.2 fun x hx => by simpa using (ho.mem ∅ x).1 hx
          · exact Or.inl ((x2.trans (cost_modified s1 ∅)).mono (by omega))
  by_cases hm2 : m2 ≠ []
  · rw [if_pos hm2] at hC
    cases hC
    rcases hc2.2 hm2 with x | ⟨x1, x2⟩
    · exact Or.inl x
    · exact Or.inr (Or.inr ⟨x1, Or.inr x2⟩)
  rw [if_neg hm2] at hC
  obtain ⟨g2, b2, cls2⟩ := hc2.1
  have fin : ∀ u : St P, u = s2 → Cost (-1) t u ∨ (u = t ∧ ([] : List Nat) = []) ∨
      (u = { t with modified := ∅ } ∧ (([] : List Nat) = [] ∨ t.modified ≠ ∅)) := by
    rintro u rfl
    rcases cls2 with (x | x) | ⟨_, x, _⟩ | ⟨_, x⟩
    · exact Or.inr (Or.inl ⟨x, rfl⟩)
    · exact Or.inr (Or.inr ⟨x, Or.inl rfl⟩)
    · exact Or.inl x
    · exact Or.inl (x.mono (by omega))
  have c2 : Cost 0 t s2 := by
    rcases cls2 with (x | x) | ⟨_, x, _⟩ | ⟨_, x⟩
    · rw [x]; exact Cost.refl t
    · rw [x]; exact cost_modified t ∅
    · exact x.mono (by omega)
    · exact x.mono (by omega)
  -- duplicate elements
  obtain ⟨m3, s3, hd3, hD⟩ := bind_eq_ok hC
  by_cases hm3 : m3 ≠ []
  · rw [if_pos hm3] at hD
    cases hD
    rcases dupEl_cost ho g2 hd3 with ⟨_, x⟩ | ⟨_, x, _⟩
    · exact absurd x hm3
    · exact Or.inl ((c2.trans x).mono (by omega))
  rw [if_neg hm3] at hD
  obtain rfl : s3 = s2 := by
    rcases dupEl_cost ho g2 hd3 with ⟨x, _⟩ | ⟨_, _, x⟩
    · exact x
    · exact absurd x hm3
  split at hD
  · cases hD; exact fin _ rfl
  rename_i h3
  rcases hgood : g.good ps with _ | _ | _ <;> rw [hgood] at hD
  · simp [fail_apply] at hD
  rotate_left
  · cases hD; exact fin _ rfl
  simp only at hD
  -- flat tetrahedron
  obtain ⟨m4, s4, hd4, hE⟩ := bind_eq_ok hD
  have hc4 : Good s4 ∧ (∀ n ∈ el.nodes, n ≤ s4.maxNode) ∧ (m4 ≠ [] → Cost (-1) t s4) ∧
      ((Here el.nodes s4 ∧ Cost 0 t s4 ∧ ∃ e el', look s4.elements e = some el' ∧ el'.nodes = el.nodes) ∨
       (Here el.nodes s4 ∧ Cost (-1) t s4) ∨ Cost (-2) t s4) := by
    have habs : look s3.elements eid = none → s4 = s3 ∧ m4 = [] := fun hn => flatTetra_none ho hn hd4
    rcases cls2 with x | ⟨x1, x2, x3⟩ | ⟨x1, x2⟩
    · have hh : Here el.nodes s3 := by
        rcases x with x | x
        · rw [x]; exact hhere
        · rw [x]; exact ⟨good_modified hs ∅, hhere.here⟩
      have hle : look s3.elements eid = some el := by
        rcases x with x | x <;> rw [x] <;> exact hl
      rcases flatTetra_cost ho hh hd4 with ⟨rfl, y⟩ | ⟨y1, y2⟩
      · exact ⟨g2, b2, fun hc => absurd y hc, Or.inl ⟨hh, c2, eid, el, hle, rfl⟩⟩
      · have hc : Cost (-1) t s4 := (c2.trans y2).mono (by omega)
        refine ⟨y1.good, fun n hn => ?_, fun _ => hc, Or.inr (Or.inl ⟨y1, hc⟩)⟩
        obtain ⟨q, hq⟩ := Option.isSome_iff_exists.1 (y1.here n hn)
        exact y1.good.nodeMax n q hq
    · obtain ⟨rfl, y⟩ := habs x3
      exact ⟨g2, b2, fun hc => absurd y hc, Or.inr (Or.inl ⟨x1, x2⟩)⟩
    · obtain ⟨rfl, y⟩ := habs x1
      exact ⟨g2, b2, fun hc => absurd y hc, Or.inr (Or.inr x2)⟩
  obtain ⟨g4, b4, hr4, cls4⟩ := hc4
  by_cases hm4 : m4 ≠ []
  · rw [if_pos hm4] at hE
    cases hE
    exact Or.inl (hr4 hm4)
  rw [if_neg hm4] at hE
  -- flat triangle
  obtain ⟨m5, s5, hd5, hF⟩ := bind_eq_ok hE
  obtain ⟨g5, k1, k2, k3⟩ := flatTriangle_cost ho hg g4 b4 (by omega) h4 hd5
  have c5 : Cost (-1) t s5 := by
    rcases cls4 with ⟨x1, x2, x3⟩ | ⟨x1, x2⟩ | x
    · exact (x2.trans (k3 x1 x3)).mono (by omega)
    · exact (x2.trans (k2 x1)).mono (by omega)
    · exact (x.trans k1).mono (by omega)
  by_cases hm5 : m5 ≠ []
  · rw [if_pos hm5] at hF
    cases hF
    exact Or.inl c5
  rw [if_neg hm5] at hF
  -- short edge
  obtain ⟨r, s6, hd6, hG⟩ := bind_eq_ok hF
  obtain ⟨_, c6, _⟩ := merge_cost ho g5 hd6
  cases hG
  exact Or.inl (((c5.trans c6).trans (cost_modified s6 ∅)).mono (by omega))

/-! ### The loop -/

/-- Order of the measures. -/
abbrev Lex4 : Nat × Nat × Nat × Nat → Nat × Nat × Nat × Nat → Prop :=
  Prod.Lex (· < ·) (Prod.Lex (· < ·) (Prod.Lex (· < ·) (· < ·)))

theorem lex4_wf : WellFounded Lex4 :=
  (Prod.lex ⟨_, Nat.lt_wfRel.wf⟩ (Prod.lex ⟨_, Nat.lt_wfRel.wf⟩ (Prod.lex ⟨_, Nat.lt_wfRel.wf⟩ ⟨_, Nat.lt_wfRel.wf⟩))).wf

/-- Measure of a state of the loop. -/
def measure (limit : Nat) (stack m : List Nat) (s : St P) : Nat × Nat × Nat × Nat :=
  (limit + 1 - s.maxEl, (weight s).toNat, if s.modified = ∅ then 0 else 1, (m.reverse ++ stack).length)

theorem healLoop_ends (ho : OrdOk ord) {g : Geo P} (hg : g.Sane) (limit : Nat) (stack m : List Nat) {s : St P}
    (hs : Good s) : ∃ N r, (∀ fuel, N ≤ fuel → healLoop ord g limit fuel stack m s = r) ∧ r.1 ≠ .ok false := by
  induction hq : measure limit stack m s using lex4_wf.induction generalizing stack m s with
  | _ q ih =>
    subst hq
    by_cases hst : stack = []
    · refine ⟨1, (.ok true, s), fun fuel hf => ?_, by simp⟩
      obtain ⟨f, rfl⟩ := Nat.exists_eq_succ_of_ne_zero (by omega : fuel ≠ 0)
      simp only [healLoop, if_pos hst]; rfl
    by_cases hlim : limit < s.maxEl
    · refine ⟨1, (.ok true, s), fun fuel hf => ?_, by simp⟩
      obtain ⟨f, rfl⟩ := Nat.exists_eq_succ_of_ne_zero (by omega : fuel ≠ 0)
      simp only [healLoop, if_neg hst, get_bind, if_pos hlim]; rfl
    rcases hl : m.reverse ++ stack with _ | ⟨eid, rest⟩
    · simp at hl; exact absurd hl.2 hst
    rcases h1 : healOne ord g eid s with ⟨r, s'⟩
    have hstep : ∀ f, healLoop ord g limit (f + 1) stack m s =
        (healOne ord g eid >>= fun m' => healLoop ord g limit f rest m') s := by
      intro f
      simp only [healLoop, if_neg hst, get_bind, if_neg hlim, hl]
    cases r with
    | error e =>
      refine ⟨1, (.error e, s'), fun fuel hf => ?_, by simp⟩
      obtain ⟨f, rfl⟩ := Nat.exists_eq_succ_of_ne_zero (by omega : fuel ≠ 0)
      rw [hstep, bind_err h1]
    | ok m' =>
      have hg' : Good s' := (since_of_eq (fun _ => pres_healOne ho hg eid) hs h1).good
      have hlt : Lex4 (measure limit rest m' s') (measure limit stack m s) := by
        have hw : ∀ u : St P, 0 ≤ weight u := fun u => by simp only [weight]; omega
        have hlen : (m.reverse ++ stack).length = rest.length + 1 := by rw [hl]; rfl
        rcases healOne_cost ho hg hs h1 with (x | ⟨x, y⟩) | ⟨rfl, rfl⟩ | ⟨rfl, y⟩
        · exact Prod.Lex.left _ _ (by omega)
        · simp only [measure, ← x]
          refine Prod.Lex.right _ (Prod.Lex.left _ _ ?_)
          have := hw s'
          omega
        · refine Prod.Lex.right _ (Prod.Lex.right _ (Prod.Lex.right _ ?_))
          rw [hlen]; simp
        · show Lex4 (limit + 1 - s.maxEl, (weight s).toNat, _, _) (measure limit stack m s)
          simp only [measure]
          refine Prod.Lex.right _ (Prod.Lex.right _ ?_)
          by_cases hmod : s.modified = ∅
          · rcases y with rfl | y
            · rw [if_pos trivial, if_pos hmod]
              refine Prod.Lex.right _ ?_
              rw [hlen]; simp
            · exact absurd hmod y
          · rw [if_pos trivial, if_neg hmod]
            exact Prod.Lex.left _ _ (by omega)
      obtain ⟨N, r, hN, hr⟩ := ih _ hlt rest m' hg' rfl
      refine ⟨N + 1, r, fun fuel hf => ?_, hr⟩
      obtain ⟨f, rfl⟩ := Nat.exists_eq_succ_of_ne_zero (by omega : fuel ≠ 0)
      rw [hstep, bind_ok h1]
      exact hN f (by omega)

/-- **C33** (first half; the second, that modified elements are checked again, is false, see `modified_not_rechecked`): `heal_mesh` ends on every mesh, after any earlier calls, whatever the geometric tests answer, in
whatever order sets are iterated, and for every limit on new elements: there is a number of turns after which the loop has
ended or an exception was raised, and more turns change nothing. -/
theorem heal_terminates_partial (ho : OrdOk ord) {els : List (Nat × Elem)} {nodes : List (Nat × P)}
    (hv : ValidMesh els nodes) {s0 s : St P} (h0 : init els nodes = .ok s0) (h : Run ord s0 s) {g : Geo P} (hg : g.Sane)
    (limit : Nat) : ∃ N r, (∀ fuel, N ≤ fuel → healMesh ord g limit fuel s = r) ∧ r.1 ≠ .ok false := by
  obtain ⟨N, r, h1, h2⟩ := healLoop_ends ho hg limit (s.elements.map Prod.fst).reverse []
    (run_since ho (init_good hv h0) h).good
  exact ⟨N, r, fun fuel hf => h1 fuel hf, h2⟩

end Verif.Heal
