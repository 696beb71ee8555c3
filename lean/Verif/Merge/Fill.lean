import Verif.Merge.Run
import Verif.Decomp.NestedProps
import Mathlib.Tactic.Linarith

/-! The search that gives values to the remaining polygons: it ends, and what the values mean. -/

namespace Verif.Merge
open Verif.Decomp (St Id HE flip upd sidePoly fuel)
open Verif.Front (Fr Cfg Err Range Good bindOk liftD_ok key_ok checkOk needOk)

theorem countP_lt' {α : Type} {p p' : α → Bool} : ∀ {l : List α} {a : α}, (∀ x, p' x = true → p x = true) → a ∈ l → p a = true → p' a = false →
    l.countP p' < l.countP p
  | x :: l, a, h, ha, h1, h2 => by
    have hle : l.countP p' ≤ l.countP p := List.countP_mono_left fun y _ hy => h y hy
    rcases List.mem_cons.1 ha with rfl | ha
    · rw [List.countP_cons_of_pos h1, List.countP_cons_of_neg (by simp [h2])]
      exact Nat.lt_succ_of_le hle
    · have := countP_lt' h ha h1 h2
      by_cases hx : p' x = true
      · rw [List.countP_cons_of_pos hx, List.countP_cons_of_pos (h x hx)]
        exact Nat.succ_lt_succ this
      · rw [List.countP_cons_of_neg hx]
        refine lt_of_lt_of_le this ?_
        rw [List.countP_cons]
        exact Nat.le_add_right _ _

section
variable {K : Type}

/-- The polygon `y` is on the other side of a segment of the outer wire of `x`. -/
def Across (s : St K) (x y : Id) : Prop := ∃ d : HE, d.1 ∈ s.sid.live ∧ s.wire d = some (s.outer x) ∧ sidePoly s (flip d) = some y

theorem walkGo_length {s : St K} {start stop : HE} : ∀ {n : Nat} {h : HE} {l : List HE}, Verif.Decomp.walkGo s start stop n h = .ok l → l.length ≤ n
  | 0, h, l, hs => by cases hs
  | n + 1, h, l, hs => by
    rw [Verif.Decomp.walkGo] at hs
    simp only [Verif.Decomp.bind_ok] at hs
    obtain ⟨k, _, hs⟩ := hs
    split at hs
    · cases hs; simp
    · simp only [Verif.Decomp.bind_ok] at hs
      obtain ⟨_, _, l', hl, hs⟩ := hs
      cases hs
      simpa using walkGo_length hl

theorem wireAll_length {s : St K} {w : Id} {l : List HE} (h : Verif.Decomp.wireAll s w = .ok l) : l.length ≤ fuel s := by
  unfold Verif.Decomp.wireAll at h
  split at h
  · cases h; simp
  · simp only [Verif.Decomp.bind_ok] at h
    obtain ⟨d, _, h⟩ := h
    exact walkGo_length h

/-- A step to a polygon without a value. -/
def Step (s : St K) (d0 : Dict (Option Id)) (x y : Id) : Prop := Across s x y ∧ get d0 y = some none

/-- The value of `q` comes from a polygon that had it at the start. -/
def From (s : St K) (d0 : Dict (Option Id)) (p q : Id) : Prop :=
  ∃ q0, get d0 q0 = some (some p) ∧ Relation.ReflTransGen (Step s d0) q0 q

/-- State of the search that started with `d0`. -/
structure Sp (s : St K) (d0 d : Dict (Option Id)) : Prop where
  keys : ∀ q, get d q ≠ none ↔ q ∈ s.qid.live
  ext : ∀ q p, get d0 q = some (some p) → get d q = some (some p)
  sound : ∀ q p, get d q = some (some p) → From s d0 p q
  none0 : ∀ q, get d q = some none → get d0 q = some none

/-- Polygons with a value that were not yet searched are in the lists. -/
def Cl (s : St K) (d todo : Dict (Option Id)) (stack : List Id) : Prop :=
  ∀ x p, get d x = some (some p) → (x, some p) ∈ todo ∨ x ∈ stack ∨ ∀ y, Across s x y → get d y = some none → y ∈ stack

/-- Number of polygons without a value. -/
def opens (s : St K) (d : Dict (Option Id)) : Nat := s.qid.live.countP fun q => decide (get d q = some none)

/-- Bound of the remaining turns. -/
def left (s : St K) (d : Dict (Option Id)) : List Id → Nat
  | [] => 0
  | q :: st => st.length + 1 + 2 * fuel s * opens s d + (if get d q = some none then 0 else fuel s)

theorem left_le (s : St K) (d : Dict (Option Id)) (st : List Id) : left s d st ≤ st.length + 2 * fuel s * opens s d + fuel s := by
  cases st with
  | nil => simp [left]
  | cons q st =>
    simp only [left, List.length_cons]
    split <;> omega

variable [Field K] [LinearOrder K]

theorem outer_sides {g : Verif.Decomp.Geom K} {s : St K} (hK : Verif.Decomp.KeepReach g s) {q : Id} (hq : q ∈ s.qid.live) :
    ∃ l, Verif.Decomp.wireAll s (s.outer q) = .ok l ∧ l.length ≤ fuel s ∧ ∀ d : HE, d ∈ l ↔ d.1 ∈ s.sid.live ∧ s.wire d = some (s.outer q) := by
  have hN := hK.nested
  by_cases h0 : s.outer q = 0
  · refine ⟨[], ?_, by simp, fun d => ?_⟩
    · unfold Verif.Decomp.wireAll
      rw [h0, if_pos hN.tree.top]
    · simp only [List.not_mem_nil, false_iff, not_and]
      intro hd hw
      obtain ⟨w, w1, _, w3⟩ := hN.wires.lab d hd
      rw [hw, h0] at w1
      cases w1
      exact w3 rfl
  · obtain ⟨l, h1, _, _, h2⟩ := (Verif.Decomp.wires_kept hK).2.2 _ (hN.nest.outs q hq).1 h0
    exact ⟨l, h1, wireAll_length h1, h2⟩

theorem openNext_ok {s : St K} {d : Dict (Option Id)} (hN : Verif.Decomp.Nested s) (hd : ∀ q, get d q ≠ none ↔ q ∈ s.qid.live) :
    ∀ {l : List HE}, (∀ h ∈ l, h.1 ∈ s.sid.live) → ∃ r, openNext s d l = .ok r ∧ r.length ≤ l.length ∧
      ∀ y, y ∈ r ↔ ∃ h ∈ l, sidePoly s (flip h) = some y ∧ get d y = some none
  | [], _ => ⟨[], rfl, by simp, by simp⟩
  | h :: l, hl => by
    obtain ⟨r, h1, h2, h3⟩ := openNext_ok hN hd (l := l) fun x hx => hl x (by simp [hx])
    obtain ⟨w, q, w1, _, _, w4, w5⟩ := hN.side (d := flip h) (hl h (by simp))
    have hq : sidePoly s (flip h) = some q := by simp only [sidePoly, w1, Option.bind_some, w4]
    obtain ⟨v, hv⟩ := Option.ne_none_iff_exists'.1 ((hd q).2 w5)
    refine ⟨if v = none then q :: r else r, ?_, ?_, fun y => ?_⟩
    · rw [openNext]
      simp only [bindOk, liftD_ok, polyAt_ok, needOk, h1]
      exact ⟨q, hq, v, hv, r, rfl, rfl⟩
    · split
      · simpa using h2
      · simpa using h2.trans (Nat.le_succ _)
    · constructor
      · intro hy
        split at hy
        · next hvn =>
          rcases List.mem_cons.1 hy with rfl | hy
          · exact ⟨h, by simp, hq, by rw [hv, hvn]⟩
          · obtain ⟨h', b1, b2⟩ := (h3 y).1 hy
            exact ⟨h', by simp [b1], b2⟩
        · obtain ⟨h', b1, b2⟩ := (h3 y).1 hy
          exact ⟨h', by simp [b1], b2⟩
      · rintro ⟨h', b1, b2, b3⟩
        rcases List.mem_cons.1 b1 with rfl | b1
        · rw [hq] at b2
          cases b2
          rw [hv] at b3
          cases b3
          simp
        · have := (h3 y).2 ⟨h', b1, b2, b3⟩
          split
          · simp [this]
          · exact this

theorem spread_ok {g : Verif.Decomp.Geom K} {s : St K} (hK : Verif.Decomp.KeepReach g s) {d0 todo : Dict (Option Id)} {p : Id} :
    ∀ {n : Nat} {stack : List Id} {d : Dict (Option Id)}, left s d stack ≤ n → Sp s d0 d →
      (∀ x ∈ stack, x ∈ s.qid.live ∧ (get d x = some none ∨ get d x = some (some p)) ∧ From s d0 p x) → Cl s d todo stack →
      ∃ d', spread s p n stack d = .ok d' ∧ Sp s d0 d' ∧ Cl s d' todo []
  | n, [], d, _, hS, _, hC => ⟨d, by unfold spread; rfl, hS, hC⟩
  | 0, q :: st, d, hn, _, _, _ => by simp [left] at hn
  | n + 1, q :: st, d, hn, hS, hst, hC => by
    obtain ⟨hq, hqv, hqf⟩ := hst q (by simp)
    have hget : ∀ x, get (set d q (some p)) x = if x = q then some (some p) else get d x := fun x => get_set
    have hS' : Sp s d0 (set d q (some p)) := by
      refine ⟨fun x => ?_, fun x v hx => ?_, fun x v hx => ?_, fun x hx => ?_⟩
      · rw [hget]
        split
        · next hh => simp [hh, hq]
        · exact hS.keys x
      · rw [hget]
        split
        · next hh =>
          subst hh
          have := hS.ext x v hx
          rcases hqv with h | h
          · rw [h] at this; cases this
          · rw [h] at this; exact this
        · exact hS.ext x v hx
      · rw [hget] at hx
        split at hx
        · next hh => cases hx; exact hh ▸ hqf
        · exact hS.sound x v hx
      · rw [hget] at hx
        split at hx
        · cases hx
        · exact hS.none0 x hx
    obtain ⟨l, l1, l2, l3⟩ := outer_sides hK hq
    obtain ⟨r, r1, r2, r3⟩ := openNext_ok hK.nested hS'.keys (l := l) fun h hh => ((l3 h).1 hh).1
    have hra : ∀ y, y ∈ r ↔ Across s q y ∧ get (set d q (some p)) y = some none := by
      intro y
      rw [r3]
      constructor
      · rintro ⟨h, b1, b2, b3⟩
        exact ⟨⟨h, ((l3 h).1 b1).1, ((l3 h).1 b1).2, b2⟩, b3⟩
      · rintro ⟨⟨h, b1, b2, b3⟩, b4⟩
        exact ⟨h, (l3 h).2 ⟨b1, b2⟩, b3, b4⟩
    have hle : left s (set d q (some p)) (r.reverse ++ st) ≤ n := by
      have hmono : ∀ x, decide (get (set d q (some p)) x = some none) = true → decide (get d x = some none) = true := by
        intro x hx
        have hx' := of_decide_eq_true hx
        rw [hget] at hx'
        split at hx'
        · cases hx'
        · exact decide_eq_true hx'
      have hop : opens s (set d q (some p)) ≤ opens s d := List.countP_mono_left fun x _ hx => hmono x hx
      have hop' : 2 * fuel s * opens s (set d q (some p)) ≤ 2 * fuel s * opens s d := Nat.mul_le_mul_left _ hop
      rcases hqv with h | h
      · have hlt : opens s (set d q (some p)) < opens s d :=
          countP_lt' hmono hq (decide_eq_true h) (by rw [hget, if_pos rfl]; rfl)
        have hlt' : 2 * fuel s * (opens s (set d q (some p)) + 1) ≤ 2 * fuel s * opens s d := Nat.mul_le_mul_left _ hlt
        rw [Nat.mul_add, Nat.mul_one] at hlt'
        have := left_le s (set d q (some p)) (r.reverse ++ st)
        simp only [List.length_append, List.length_reverse] at this
        simp only [left, if_pos h] at hn
        omega
      · have hn' : st.length + 1 + 2 * fuel s * opens s d + fuel s ≤ n + 1 := by
          simp only [left] at hn
          rwa [if_neg (by rw [h]; simp)] at hn
        cases hr : r.reverse with
        | nil =>
          rw [List.nil_append]
          have := left_le s (set d q (some p)) st
          omega
        | cons y ys =>
          have hy : get (set d q (some p)) y = some none :=
            ((hra y).1 (List.mem_reverse.1 (by rw [hr]; simp))).2
          have hlen : ys.length + 1 = r.length := by rw [← List.length_reverse (as := r), hr]; simp
          simp only [List.cons_append, left, if_pos hy, List.length_append]
          omega
    have hnext := spread_ok hK (d0 := d0) (todo := todo) (p := p) (n := n) (stack := r.reverse ++ st) (d := set d q (some p)) hle hS'
      (fun x hx => by
        rcases List.mem_append.1 hx with hx | hx
        · obtain ⟨b1, b2⟩ := (hra x).1 (List.mem_reverse.1 hx)
          refine ⟨(hS'.keys x).1 (by rw [b2]; simp), Or.inl b2, ?_⟩
          obtain ⟨q0, c1, c2⟩ := hqf
          exact ⟨q0, c1, c2.tail ⟨b1, hS'.none0 x b2⟩⟩
        · obtain ⟨b1, b2, b3⟩ := hst x (by simp [hx])
          refine ⟨b1, ?_, b3⟩
          rw [hget]
          split
          · exact Or.inr rfl
          · exact b2)
      (fun x v hx => by
        by_cases hxq : x = q
        · subst hxq
          exact Or.inr (Or.inr fun y hy hyn => List.mem_append.2 (Or.inl (List.mem_reverse.2 ((hra y).2 ⟨hy, hyn⟩))))
        · have hx' := hx
          rw [hget, if_neg hxq] at hx'
          rcases hC x v hx' with h | h | h
          · exact Or.inl h
          · exact Or.inr (Or.inl (List.mem_append.2 (Or.inr ((List.mem_cons.1 h).resolve_left hxq))))
          · refine Or.inr (Or.inr fun y hy hyn => ?_)
            rw [hget] at hyn
            split at hyn
            · cases hyn
            · next hyq => exact List.mem_append.2 (Or.inr ((List.mem_cons.1 (h y hy hyn)).resolve_left hyq)))
    obtain ⟨d', e1, e2⟩ := hnext
    refine ⟨d', ?_, e2⟩
    rw [spread]
    simp only [bindOk, key_ok, liftD_ok]
    exact ⟨(), hq, l, l1, r, r1, e1⟩

theorem spreadAll_ok {g : Verif.Decomp.Geom K} {s : St K} (hK : Verif.Decomp.KeepReach g s) {d0 : Dict (Option Id)} :
    ∀ {todo d : Dict (Option Id)}, (∀ x p, (x, some p) ∈ todo → get d0 x = some (some p)) → Sp s d0 d → Cl s d todo [] →
      ∃ d', spreadAll s todo d = .ok d' ∧ Sp s d0 d' ∧ Cl s d' [] []
  | [], d, _, hS, hC => ⟨d, rfl, hS, hC⟩
  | (q, none) :: xs, d, ht, hS, hC => by
    rw [spreadAll]
    refine spreadAll_ok hK (fun x p hx => ht x p (by simp [hx])) hS fun x p hx => ?_
    rcases hC x p hx with h | h
    · simp only [List.mem_cons, Prod.mk.injEq, reduceCtorEq, and_false, false_or] at h
      exact Or.inl h
    · exact Or.inr h
  | (q, some p) :: xs, d, ht, hS, hC => by
    have hq0 := ht q p (by simp)
    have hq := hS.ext q p hq0
    have hql := (hS.keys q).1 (by rw [hq]; simp)
    have hle : left s d [q] ≤ turns s := by
      have h1 : opens s d ≤ s.qid.live.length := List.countP_le_length
      have h2 : 2 * fuel s * opens s d ≤ 2 * fuel s * s.qid.live.length := Nat.mul_le_mul_left _ h1
      have := left_le s d [q]
      simp only [List.length_singleton] at this
      unfold turns
      omega
    obtain ⟨d1, e1, e2, e3⟩ := spread_ok hK (d0 := d0) (todo := xs) (p := p) hle hS
      (fun x hx => by
        rw [List.mem_singleton] at hx
        subst hx
        exact ⟨hql, Or.inr hq, x, hq0, .refl⟩)
      (fun x v hx => by
        rcases hC x v hx with h | h | h
        · rcases List.mem_cons.1 h with h | h
          · cases h
            exact Or.inr (Or.inl (by simp))
          · exact Or.inl h
        · cases h
        · exact Or.inr (Or.inr fun y hy hyn => absurd (h y hy hyn) (by simp)))
    obtain ⟨d', f1, f2⟩ := spreadAll_ok hK (fun x v hx => ht x v (by simp [hx])) e2 e3
    refine ⟨d', ?_, f2⟩
    rw [spreadAll]
    simp only [bindOk]
    exact ⟨d1, e1, f1⟩

end

/-! ### The start -/

theorem get_foldl {l : List Id} {d : Dict (Option Id)} (x : Id) :
    get (l.foldl (fun m q => setDefault m q none) d) x = if x ∈ l then some ((get d x).getD none) else get d x := by
  induction l generalizing d with
  | nil => simp
  | cons q l ih =>
    rw [List.foldl_cons, ih, get_setDefault]
    by_cases hq : x = q
    · subst hq
      simp only [if_true, List.mem_cons, true_or, Option.getD_some]
      split <;> rfl
    · simp [hq]

theorem get_of_mem {β : Type} : ∀ {d : Dict β} {x : Id} {v : β}, (d.map Prod.fst).Nodup → (x, v) ∈ d → get d x = some v
  | y :: d, x, v, hn, h => by
    simp only [get]
    rcases List.mem_cons.1 h with rfl | h
    · simp
    · have hne : y.1 ≠ x := by
        rintro rfl
        exact (List.nodup_cons.1 hn).1 (List.mem_map.2 ⟨_, h, rfl⟩)
      rw [if_neg hne]
      exact get_of_mem (List.nodup_cons.1 hn).2 h

theorem mem_of_get {β : Type} : ∀ {d : Dict β} {x : Id} {v : β}, get d x = some v → (x, v) ∈ d
  | y :: d, x, v, h => by
    simp only [get] at h
    split at h
    · next hh => cases h; subst hh; simp
    · exact List.mem_cons_of_mem _ (mem_of_get h)

theorem set_fst {β : Type} : ∀ {d : Dict β} {x : Id} {v : β}, (d.map Prod.fst).Nodup →
    ((set d x v).map Prod.fst).Nodup ∧ ∀ y, y ∈ (set d x v).map Prod.fst → y = x ∨ y ∈ d.map Prod.fst
  | [], x, v, _ => by simp [set]
  | y :: d, x, v, h => by
    simp only [set]
    split
    · next hh =>
      subst hh
      exact ⟨h, fun z hz => Or.inr hz⟩
    · next hh =>
      obtain ⟨h1, h2⟩ := List.nodup_cons.1 h
      obtain ⟨k1, k2⟩ := set_fst (x := x) (v := v) h2
      refine ⟨List.nodup_cons.2 ⟨fun hz => ?_, k1⟩, fun z hz => ?_⟩
      · rcases k2 _ hz with hz | hz
        · exact hh hz
        · exact h1 hz
      · rw [List.map_cons, List.mem_cons] at hz ⊢
        rcases hz with hz | hz
        · exact Or.inr (Or.inl hz)
        · rcases k2 z hz with hz | hz
          · exact Or.inl hz
          · exact Or.inr (Or.inr hz)

theorem foldl_fst {l : List Id} : ∀ {d : Dict (Option Id)}, (d.map Prod.fst).Nodup →
    ((l.foldl (fun m q => setDefault m q none) d).map Prod.fst).Nodup := by
  induction l with
  | nil => exact fun h => h
  | cons q l ih =>
    intro d h
    rw [List.foldl_cons]
    refine ih ?_
    unfold setDefault
    split
    · exact h
    · exact (set_fst h).1

section
variable {K : Type} [Field K] [LinearOrder K]

/-- The search never fails, and its result. -/
theorem fillMap_ok {g : Verif.Decomp.Geom K} {s : St K} (hK : Verif.Decomp.KeepReach g s) {m : Dict (Option Id)}
    (hn : (m.map Prod.fst).Nodup) (hm : ∀ q, get m q ≠ none → q ∈ s.qid.live) :
    ∃ d, fillMap s m = .ok d ∧ (∀ q, get d q ≠ none ↔ q ∈ s.qid.live) ∧ (∀ q p, get m q = some (some p) → get d q = some (some p)) ∧
      (∀ q p, get d q = some (some p) → ∃ q0, get m q0 = some (some p) ∧
        Relation.ReflTransGen (fun x y => Across s x y ∧ ∀ p', get m y ≠ some (some p')) q0 q) ∧
      ∀ x y p, get d x = some (some p) → Across s x y → ∃ p', get d y = some (some p') := by
  unfold fillMap
  obtain ⟨d0, hd0⟩ : ∃ d0, d0 = s.qid.live.foldl (fun m q => setDefault m q none) m := ⟨_, rfl⟩
  have hget : ∀ x, get d0 x = if x ∈ s.qid.live then some ((get m x).getD none) else get m x := fun x => by rw [hd0]; exact get_foldl x
  have hnd : (d0.map Prod.fst).Nodup := by rw [hd0]; exact foldl_fst hn
  have hsome : ∀ x p, get d0 x = some (some p) ↔ get m x = some (some p) := by
    intro x p
    rw [hget]
    by_cases hx : x ∈ s.qid.live
    · rw [if_pos hx]
      cases hg : get m x with
      | none => simp
      | some v => simp
    · rw [if_neg hx]
  have hkeys : ∀ q, get d0 q ≠ none ↔ q ∈ s.qid.live := by
    intro q
    rw [hget]
    by_cases hx : q ∈ s.qid.live
    · simp [hx]
    · rw [if_neg hx]
      exact ⟨fun h => hm q h, fun h => absurd h hx⟩
  dsimp only
  rw [← hd0]
  obtain ⟨d, e1, e2, e3⟩ := spreadAll_ok hK (d0 := d0) (todo := d0) (d := d0) (fun x p hx => get_of_mem hnd hx)
    ⟨hkeys, fun _ _ h => h, fun q p h => ⟨q, h, .refl⟩, fun _ h => h⟩ (fun x p hx => Or.inl (mem_of_get hx))
  refine ⟨d, e1, e2.keys, fun q p h => e2.ext q p ((hsome q p).2 h), fun q p h => ?_, fun x y p hx hy => ?_⟩
  · obtain ⟨q0, h1, h2⟩ := e2.sound q p h
    refine ⟨q0, (hsome q0 p).1 h1, ?_⟩
    clear h
    induction h2 with
    | refl => exact .refl
    | tail _ hxy ih =>
      refine ih.tail ⟨hxy.1, fun p' hp => ?_⟩
      rw [← hsome, hxy.2] at hp
      cases hp
  · have hyl : y ∈ s.qid.live := by
      obtain ⟨h, b1, b2, b3⟩ := hy
      obtain ⟨w, z, w1, _, _, w4, w5⟩ := hK.nested.side (d := flip h) b1
      simp only [sidePoly, w1, Option.bind_some, w4, Option.some.injEq] at b3
      exact b3 ▸ w5
    obtain ⟨v, hv⟩ := Option.ne_none_iff_exists'.1 ((e2.keys y).2 hyl)
    cases v with
    | some p' => exact ⟨p', hv⟩
    | none =>
      rcases e3 x p hx with h | h | h
      · cases h
      · cases h
      · exact absurd (h y hy hv) (by simp)

end
end Verif.Merge
