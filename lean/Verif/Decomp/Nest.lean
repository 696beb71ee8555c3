import Verif.Decomp.Tree
import Mathlib.Logic.Relation

/-! Nesting of wires: `set_parent`, `child_wires` and `get_childs`. -/
namespace Verif.Decomp

variable {K : Type}

/-! ### Model -/

/-- The loop over `childs` in `Wire.child_wires` (polygon.py:227-228), `f` being the recursive call. -/
def childList (f : List Id → Id → Except Err (List Id × List Id)) : List Id → List Id → Except Err (List Id × List Id)
  | seen, [] => .ok ([], seen)
  | seen, c :: cs => do
    let r ← f seen c
    let q ← childList f r.2 cs
    .ok (r.1 ++ q.1, q.2)

/-- `Wire.child_wires` (polygon.py:217-228): the yielded wires and the wires with `_get_child_passed` set. The recursion is
cut after `n` levels; a `set` is iterated in the order of the list. -/
def childWires (s : St K) : Nat → List Id → Id → Except Err (List Id × List Id)
  | 0, _, _ => .error .diverges
  | n + 1, seen, w => do
    check (w ∉ seen)
    let r ← childList (childWires s n) (w :: seen) (s.childs w)
    .ok (w :: r.1, r.2)

/-- The polygons of `Polygon.child_polygons` for a list of wires (polygon.py:50-52). -/
def innerPolys (s : St K) : List Id → Except Err (List Id)
  | [] => .ok []
  | w :: ws => do
    let q ← need (s.wpoly w)
    let l ← innerPolys s ws
    .ok (if s.outer q = w then q :: l else l)

/-- `PolygonDecomposition.get_childs` (polygons.py:282-297) with `Polygon.child_polygons` (polygon.py:45-52): the flags of all
wires are cleared first. The set of ids is a list that may repeat them. -/
def getChilds (s : St K) (n : Nat) (q : Id) : Except Err (List Id) := do
  let r ← childWires s n [] (s.outer q)
  let l ← innerPolys s r.1
  .ok (q :: l)

/-! ### Forests -/

/-- `x` is `w` or inside of it. -/
def Inside (s : St K) (w x : Id) : Prop := Relation.ReflTransGen (fun a b => b ∈ s.childs a) w x

/-- Parents and childs agree and there is no cycle; a new wire is its own parent without being its own child. -/
structure Forest (s : St K) : Prop extends Tree s where
  up : ∀ w ∈ s.wid.live, ∀ q, s.parent w = some q → q ∈ s.wid.live ∧ (w ∈ s.childs q ∨ q = w)
  rank : ∃ r : Id → Nat, ∀ w ∈ s.wid.live, ∀ c ∈ s.childs w, r w < r c

theorem Inside.live {s : St K} (h : Tree s) {w x : Id} (hw : w ∈ s.wid.live) (hx : Inside s w x) : x ∈ s.wid.live := by
  induction hx with
  | refl => exact hw
  | tail _ h2 ih => exact (h.mem _ ih _ h2).1

theorem Inside.rank {s : St K} (h : Tree s) {r : Id → Nat} (hr : ∀ w ∈ s.wid.live, ∀ c ∈ s.childs w, r w < r c) {w x : Id}
    (hw : w ∈ s.wid.live) (hx : Inside s w x) : x = w ∨ r w < r x := by
  induction hx with
  | refl => exact Or.inl rfl
  | tail h1 h2 ih =>
    have := hr _ (Inside.live h hw h1) _ h2
    rcases ih with rfl | ih
    · exact Or.inr this
    · exact Or.inr (ih.trans this)

/-- A wire inside two wires: one of them is inside the other. -/
theorem Inside.total {s : St K} (h : Tree s) {a b x : Id} (ha : a ∈ s.wid.live) (hb : b ∈ s.wid.live) (hax : Inside s a x)
    (hbx : Inside s b x) : Inside s a b ∨ Inside s b a := by
  induction hax with
  | refl => exact Or.inr hbx
  | tail h1 h2 ih =>
    rename_i y z
    rcases Relation.ReflTransGen.cases_tail hbx with h3 | ⟨u, h3, h4⟩
    · subst h3
      exact Or.inl (h1.tail h2)
    · have e1 := (h.mem _ (Inside.live h ha h1) _ h2).2.2
      have e2 := (h.mem _ (Inside.live h hb h3) _ h4).2.2
      rw [e1] at e2
      obtain rfl := Option.some.inj e2
      exact ih h3

/-- Siblings have nothing in common. -/
theorem Forest.disjoint {s : St K} (h : Forest s) {w c c' x : Id} (hw : w ∈ s.wid.live) (hc : c ∈ s.childs w)
    (hc' : c' ∈ s.childs w) (h1 : Inside s c x) (h2 : Inside s c' x) : c = c' := by
  obtain ⟨r, hr⟩ := h.rank
  have key : ∀ a b, a ∈ s.childs w → b ∈ s.childs w → Inside s a b → a = b := by
    intro a b ha hb hab
    rcases Relation.ReflTransGen.cases_tail hab with h3 | ⟨u, h3, h4⟩
    · exact h3.symm
    · have la := (h.mem w hw a ha).1
      have e1 := (h.mem w hw b hb).2.2
      have e2 := (h.mem u (Inside.live h.toTree la h3) b h4).2.2
      rw [e1] at e2
      obtain rfl := Option.some.inj e2
      have := hr w hw a ha
      rcases Inside.rank h.toTree hr la h3 with rfl | h5
      · exact absurd this (lt_irrefl _)
      · omega
  rcases Inside.total h.toTree (h.mem w hw c hc).1 (h.mem w hw c' hc').1 h1 h2 with h3 | h3
  · exact key _ _ hc hc' h3
  · exact (key _ _ hc' hc h3).symm

theorem init_forest [Zero K] : Forest (init : St K) where
  wids := ⟨by simp [init], by simp [init], by simp [init], by simp [init], by simp [init]⟩
  root := by simp [init]
  top := by simp [init]
  non := by simp [init]
  nd := by simp [init]
  mem := by simp [init]
  up := by
    intro w hw q hq
    simp only [init, List.mem_singleton] at hw hq
    subst hw
    simp at hq
  rank := ⟨fun _ => 0, by simp [init]⟩

theorem newWireObj_forest {s : St K} (h : Forest s) : Forest (newWireObj s).2 := by
  have hT := newWireObj_tree h.toTree
  obtain ⟨h1, h2, h3⟩ := Ids.append_ok h.wids
  have hl : ∀ j, j ∈ s.wid.append.2.live ↔ j ∈ s.wid.live ∨ j = s.wid.append.1 := by
    intro j; rw [h2]; simp
  obtain ⟨r, hr⟩ := h.rank
  refine { toTree := hT, up := ?_, rank := ⟨r, ?_⟩ }
  · intro w hw q hq
    simp only [newWireObj, upd] at hw hq ⊢
    by_cases hwn : w = s.wid.append.1
    · subst hwn
      rw [Function.update_self] at hq
      obtain rfl := Option.some.inj hq
      exact ⟨(hl _).2 (Or.inr rfl), Or.inr rfl⟩
    · rw [Function.update_of_ne hwn] at hq
      obtain ⟨k1, k2⟩ := h.up w (((hl w).1 hw).resolve_right hwn) q hq
      refine ⟨(hl q).2 (Or.inl k1), ?_⟩
      have : q ≠ s.wid.append.1 := fun hh => h1 (hh ▸ k1)
      rw [Function.update_of_ne this]
      exact k2
  · intro w hw c hc
    simp only [newWireObj, upd] at hw hc
    by_cases hwn : w = s.wid.append.1
    · subst hwn
      simp at hc
    · rw [Function.update_of_ne hwn] at hc
      exact hr w (((hl w).1 hw).resolve_right hwn) c hc

/-- `set_parent` to a wire that is not inside the moved one keeps a forest. -/
theorem setParent_forest {w x : Id} {s s' : St K} (h : Forest s) (hw : w ∈ s.wid.live) (hw0 : w ≠ 0) (hx : x ∈ s.wid.live)
    (hn : ¬ Inside s w x) (hs : setParent w (some x) s = .ok s') : Forest s' := by
  have hT := setParent_tree h.toTree hw hw0 hs
  obtain ⟨_, h2⟩ := setParent_childs h.toTree hw hw0 hs
  obtain ⟨C, rfl⟩ := setParent_eq hs
  obtain ⟨r, hr⟩ := h.rank
  classical
  refine { toTree := hT, up := ?_, rank := ⟨fun y => if Inside s w y then r y + r x + 1 else r y, ?_⟩ }
  · intro y hy q hq
    dsimp only at hy hq ⊢
    by_cases hyw : y = w
    · subst hyw
      simp only [upd, Function.update_self, Option.some.injEq] at hq
      subst hq
      exact ⟨hx, Or.inl ((h2 x hx y).2 (Or.inl ⟨rfl, rfl⟩))⟩
    · simp only [upd, Function.update_of_ne hyw] at hq
      obtain ⟨k1, k2⟩ := h.up y hy q hq
      exact ⟨k1, k2.imp_left fun k => (h2 q k1 y).2 (Or.inr ⟨hyw, k⟩)⟩
  · intro y hy c hc
    dsimp only at hy ⊢
    rcases (h2 y hy c).1 hc with ⟨rfl, rfl⟩ | ⟨h3, h4⟩
    · rw [if_neg hn, if_pos (show Inside s c c from Relation.ReflTransGen.refl)]
      omega
    · have hlt := hr y hy c h4
      by_cases hy' : Inside s w y
      · rw [if_pos hy', if_pos (show Inside s w c from hy'.tail h4)]
        omega
      · rw [if_neg hy', if_neg]
        · exact hlt
        · intro hc'
          rcases Relation.ReflTransGen.cases_tail hc' with k | ⟨u, k1, k2⟩
          · exact h3 k
          · have e1 := (h.mem y hy c h4).2.2
            have e2 := (h.mem u (Inside.live h.toTree hw k1) c k2).2.2
            rw [e1] at e2
            obtain rfl := Option.some.inj e2
            exact hy' k1

/-- In a forest `set_parent` of a wire other than the root raises no exception. -/
theorem setParent_total {w x : Id} {s : St K} (h : Forest s) (hw : w ∈ s.wid.live) (hw0 : w ≠ 0) :
    ∃ s', setParent w (some x) s = .ok s' := by
  unfold setParent leaveParent
  cases hp : s.parent w with
  | none => exact absurd hp (h.non w hw hw0)
  | some q =>
    have := (h.up w hw q hp).2
    simp [check, this, bind, Except.bind]

/-! ### Enumeration -/

theorem childList_ok {s : St K} {n : Nat} {w : Id} (hF : Forest s) (hw : w ∈ s.wid.live)
    (IH : ∀ c ∈ s.childs w, ∀ seen, (∀ x, Inside s c x → x ∉ seen) → ∃ l S, childWires s n seen c = .ok (l, S) ∧ l.Nodup ∧
      (∀ x, x ∈ l ↔ Inside s c x) ∧ ∀ x, x ∈ S ↔ x ∈ seen ∨ Inside s c x) :
    ∀ cs : List Id, cs.Nodup → (∀ c ∈ cs, c ∈ s.childs w) → ∀ seen, (∀ c ∈ cs, ∀ x, Inside s c x → x ∉ seen) →
      ∃ l S, childList (childWires s n) seen cs = .ok (l, S) ∧ l.Nodup ∧ (∀ x, x ∈ l ↔ ∃ c ∈ cs, Inside s c x) ∧
        ∀ x, x ∈ S ↔ x ∈ seen ∨ ∃ c ∈ cs, Inside s c x := by
  intro cs
  induction cs with
  | nil => intro _ _ seen _; exact ⟨[], seen, rfl, by simp⟩
  | cons c cs ih =>
    intro hnd hsub seen hdis
    obtain ⟨l1, S1, e1, n1, m1, k1⟩ := IH c (hsub c (by simp)) seen (hdis c (by simp))
    obtain ⟨l2, S2, e2, n2, m2, k2⟩ := ih (List.nodup_cons.1 hnd).2 (fun d hd => hsub d (by simp [hd])) S1 (by
      intro d hd x hx hS
      rcases (k1 x).1 hS with h | h
      · exact hdis d (by simp [hd]) x hx h
      · have := hF.disjoint hw (hsub c (by simp)) (hsub d (by simp [hd])) h hx
        exact (List.nodup_cons.1 hnd).1 (this ▸ hd))
    refine ⟨l1 ++ l2, S2, ?_, ?_, ?_, ?_⟩
    · simp only [childList, e1, e2, bind, Except.bind]
    · refine List.nodup_append.2 ⟨n1, n2, ?_⟩
      intro x hx y hy hxy
      subst hxy
      obtain ⟨d, hd, hdx⟩ := (m2 x).1 hy
      have := hF.disjoint hw (hsub c (by simp)) (hsub d (by simp [hd])) ((m1 x).1 hx) hdx
      exact (List.nodup_cons.1 hnd).1 (this ▸ hd)
    · intro x
      rw [List.mem_append, m1, m2]
      simp
    · intro x
      rw [k2, k1]
      simp only [List.mem_cons, exists_eq_or_imp, or_assoc]

theorem childWires_ok {s : St K} (hF : Forest s) {r : Id → Nat} (hr : ∀ w ∈ s.wid.live, ∀ c ∈ s.childs w, r w < r c)
    {M : Nat} (hM : ∀ w ∈ s.wid.live, r w < M) : ∀ k n w, w ∈ s.wid.live → M ≤ r w + k → k ≤ n → ∀ seen,
      (∀ x, Inside s w x → x ∉ seen) → ∃ l S, childWires s n seen w = .ok (l, S) ∧ l.Nodup ∧
      (∀ x, x ∈ l ↔ Inside s w x) ∧ ∀ x, x ∈ S ↔ x ∈ seen ∨ Inside s w x := by
  intro k
  induction k with
  | zero =>
    intro n w hw hk
    have := hM w hw
    omega
  | succ k ih =>
    intro n w hw hk hn seen hdis
    obtain ⟨n, rfl⟩ : ∃ m, n = m + 1 := ⟨n - 1, by omega⟩
    have hin : ∀ x, Inside s w x ↔ x = w ∨ ∃ c ∈ s.childs w, Inside s c x := by
      intro x
      constructor
      · intro h
        rcases Relation.ReflTransGen.cases_head h with h | ⟨c, h1, h2⟩
        · exact Or.inl h.symm
        · exact Or.inr ⟨c, h1, h2⟩
      · rintro (rfl | ⟨c, h1, h2⟩)
        · exact Relation.ReflTransGen.refl
        · exact Relation.ReflTransGen.head h1 h2
    have hself : ∀ c ∈ s.childs w, ¬ Inside s c w := by
      intro c hc h
      have h1 := hr w hw c hc
      rcases Inside.rank hF.toTree hr (hF.mem w hw c hc).1 h with rfl | h2
      · omega
      · omega
    obtain ⟨l, S, e, n1, m1, k1⟩ := childList_ok (n := n) hF hw
      (fun c hc seen hs => ih n c (hF.mem w hw c hc).1 (by have := hr w hw c hc; omega) (by omega) seen hs)
      (s.childs w) (hF.nd w hw) (fun _ h => h) (w :: seen) (by
        intro c hc x hx hS
        rcases List.mem_cons.1 hS with rfl | hS
        · exact hself c hc hx
        · exact hdis x ((hin x).2 (Or.inr ⟨c, hc, hx⟩)) hS)
    refine ⟨w :: l, S, ?_, ?_, ?_, ?_⟩
    · have hws : w ∉ seen := hdis w Relation.ReflTransGen.refl
      simp only [childWires, check, hws, not_false_eq_true, if_true, e, bind, Except.bind]
    · refine List.nodup_cons.2 ⟨fun hh => ?_, n1⟩
      obtain ⟨c, hc, hx⟩ := (m1 w).1 hh
      exact hself c hc hx
    · intro x
      rw [hin, List.mem_cons, m1]
    · intro x
      rw [k1, hin, List.mem_cons]
      tauto

/-- In a forest `child_wires` ends, raises no exception and yields every wire inside exactly once. -/
theorem child_wires_exact {s : St K} (h : Forest s) {w : Id} (hw : w ∈ s.wid.live) :
    ∃ N l, l.Nodup ∧ (∀ x, x ∈ l ↔ Inside s w x) ∧ ∀ n, N ≤ n → ∃ S, childWires s n [] w = .ok (l, S) := by
  obtain ⟨r, hr⟩ := h.rank
  obtain ⟨M, hM⟩ : ∃ M, ∀ w ∈ s.wid.live, r w < M := by
    induction s.wid.live with
    | nil => exact ⟨0, by simp⟩
    | cons a l ih =>
      obtain ⟨M, hM⟩ := ih
      refine ⟨max M (r a + 1), fun w hw => ?_⟩
      rcases List.mem_cons.1 hw with rfl | hw
      · omega
      · have := hM w hw; omega
  have hmono : ∀ n m seen w l S, n ≤ m → childWires s n seen w = .ok (l, S) → childWires s m seen w = .ok (l, S) := by
    intro n
    induction n with
    | zero => intro m seen w l S _ h; cases h
    | succ n ih =>
      intro m seen w l S hm h
      obtain ⟨m, rfl⟩ : ∃ k, m = k + 1 := ⟨m - 1, by omega⟩
      have hl : ∀ cs seen r, childList (childWires s n) seen cs = .ok r → childList (childWires s m) seen cs = .ok r := by
        intro cs
        induction cs with
        | nil => intro seen r h; exact h
        | cons c cs ihc =>
          intro seen r h
          simp only [childList, bind_ok, Except.ok.injEq] at h
          obtain ⟨⟨a1, a2⟩, ha, ⟨b1, b2⟩, hb, rfl⟩ := h
          simp only [childList, ih m _ _ _ _ (by omega) ha, ihc _ _ hb, bind, Except.bind]
      simp only [childWires, bind_ok, check_ok, Except.ok.injEq] at h
      obtain ⟨_, h1, r, h2, h3⟩ := h
      simp only [childWires, check, h1, not_false_eq_true, if_true, hl _ _ _ h2, bind, Except.bind, h3]
  obtain ⟨l, S, e, n1, m1, _⟩ := childWires_ok h hr hM M M w hw (by omega) le_rfl [] (by simp)
  exact ⟨M, l, n1, m1, fun n hn => ⟨S, hmono _ _ _ _ _ _ hn e⟩⟩

/-- `get_childs` gives the polygon and all polygons with outer wire inside its outer wire. -/
theorem getChilds_exact {s : St K} (h : Forest s) {q : Id} (hq : s.outer q ∈ s.wid.live)
    (hp : ∀ w ∈ s.wid.live, s.wpoly w ≠ none) :
    ∃ N l, (∀ x, x ∈ l ↔ x = q ∨ ∃ w, Inside s (s.outer q) w ∧ s.wpoly w = some x ∧ s.outer x = w) ∧
      ∀ n, N ≤ n → getChilds s n q = .ok l := by
  obtain ⟨N, l, n1, m1, e⟩ := child_wires_exact h hq
  have hl : ∀ x ∈ l, s.wpoly x ≠ none := fun x hx => hp x (Inside.live h.toTree hq ((m1 x).1 hx))
  have key : ∀ l : List Id, (∀ x ∈ l, s.wpoly x ≠ none) →
      ∃ p, innerPolys s l = .ok p ∧ ∀ x, x ∈ p ↔ ∃ w ∈ l, s.wpoly w = some x ∧ s.outer x = w := by
    intro l
    induction l with
    | nil => intro _; exact ⟨[], rfl, by simp⟩
    | cons w l ih =>
      intro hl
      obtain ⟨p, e1, m⟩ := ih (fun x hx => hl x (by simp [hx]))
      obtain ⟨y, hy⟩ := Option.ne_none_iff_exists'.1 (hl w (by simp))
      refine ⟨if s.outer y = w then y :: p else p, ?_, ?_⟩
      · simp only [innerPolys, hy, need, e1, bind, Except.bind]
      · intro x
        have : (∃ v ∈ w :: l, s.wpoly v = some x ∧ s.outer x = v) ↔ (y = x ∧ s.outer x = w) ∨ x ∈ p := by
          rw [m]
          simp only [List.mem_cons, exists_eq_or_imp, hy, Option.some.injEq]
        rw [this]
        split
        · next h =>
          rw [List.mem_cons]
          constructor
          · rintro (rfl | hx)
            · exact Or.inl ⟨rfl, h⟩
            · exact Or.inr hx
          · rintro (⟨rfl, _⟩ | hx)
            · exact Or.inl rfl
            · exact Or.inr hx
        · next h =>
          constructor
          · exact Or.inr
          · rintro (⟨rfl, hh⟩ | hx)
            · exact absurd hh h
            · exact hx
  obtain ⟨p, e1, m2⟩ := key l hl
  refine ⟨N, q :: p, fun x => ?_, fun n hn => ?_⟩
  · rw [List.mem_cons, m2]
    constructor
    · rintro (h | ⟨w, h1, h2⟩)
      · exact Or.inl h
      · exact Or.inr ⟨w, (m1 w).1 h1, h2⟩
    · rintro (h | ⟨w, h1, h2⟩)
      · exact Or.inl h
      · exact Or.inr ⟨w, (m1 w).2 h1, h2⟩
  · obtain ⟨S, hS⟩ := e n hn
    simp only [getChilds, hS, e1, bind, Except.bind]

/-- States reached by new wires and `set_parent` to wires that are not inside the moved wire. -/
inductive NestReach [Zero K] : St K → Prop where
  | init : NestReach init
  | new {s : St K} (h : NestReach s) : NestReach (newWireObj s).2
  | set {s s' : St K} {w x : Id} (h : NestReach s) (hw : w ∈ s.wid.live) (hw0 : w ≠ 0) (hx : x ∈ s.wid.live)
      (hn : ¬ Inside s w x) (hs : setParent w (some x) s = .ok s') : NestReach s'

theorem NestReach.forest [Zero K] {s : St K} (h : NestReach s) : Forest s := by
  induction h with
  | init => exact init_forest
  | new _ ih => exact newWireObj_forest ih
  | set _ hw hw0 hx hn hs ih => exact setParent_forest ih hw hw0 hx hn hs

/-- After all histories of new wires and proper `set_parent` calls: a wire is in the list of childs of its parent only,
listed once, unless it was not yet put anywhere; nothing is inside itself; and `child_wires` yields every wire inside
exactly once. -/
theorem nesting_forest [Zero K] {s : St K} (h : NestReach s) :
    (∀ w ∈ s.wid.live, ∀ q, q ∈ s.wid.live → (w ∈ s.childs q → s.parent w = some q) ∧ (s.childs q).count w ≤ 1) ∧
    (∀ w ∈ s.wid.live, ∀ q, s.parent w = some q → q ∈ s.wid.live ∧ (w ∈ s.childs q ∨ q = w)) ∧
    (∀ w ∈ s.wid.live, ∀ c ∈ s.childs w, ¬ Inside s c w) ∧
    ∀ w ∈ s.wid.live, ∃ N l, l.Nodup ∧ (∀ x, x ∈ l ↔ Inside s w x) ∧
      ∀ n, N ≤ n → ∃ S, childWires s n [] w = .ok (l, S) := by
  have hF := h.forest
  refine ⟨fun w hw q hq => ⟨fun hc => (hF.mem q hq w hc).2.2, List.nodup_iff_count_le_one.1 (hF.nd q hq) w⟩, hF.up, ?_,
    fun w hw => child_wires_exact hF hw⟩
  intro w hw c hc hin
  obtain ⟨r, hr⟩ := hF.rank
  have := hr w hw c hc
  rcases Inside.rank hF.toTree hr (hF.mem w hw c hc).1 hin with rfl | h5
  · omega
  · omega

end Verif.Decomp
