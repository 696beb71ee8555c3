import Verif.Decomp.Load
import Verif.Decomp.Bridge

/-!
`set_wire_parents` (polygons.py:835-850): the outer wires of polygons are hung under the hole around them.
-/
namespace Verif.Decomp

variable {K : Type} [Field K]

/-- The wires are nested by `par`, and each wire has its parent unless it is the outer wire of a polygon and its own parent. -/
structure Half (t : St K) (par : Id → Option Id) : Prop where
  sids : t.sid.Ok
  wires : Wires t
  tree : UpTree t
  self : ∀ w ∈ t.wid.live, w ∉ t.childs w
  nest : Nest (· ∈ t.wid.live) (· ∈ t.qid.live) par t.wpoly t.outer (Share t)
  half : ∀ w ∈ t.wid.live, t.parent w = par w ∨ (t.parent w = some w ∧ Around (· ∈ t.qid.live) t.outer w)

theorem mapM_need {l : List HE} {f : HE → Option Id} (h : ∀ d ∈ l, ∃ w, f d = some w) :
    ∃ k, (l.mapM fun d => need (f d)) = .ok k ∧ ∀ y, y ∈ k ↔ ∃ d ∈ l, f d = some y := by
  induction l with
  | nil => exact ⟨[], rfl, by simp⟩
  | cons d l ih =>
    obtain ⟨k, h1, h2⟩ := ih fun x hx => h x (by simp [hx])
    obtain ⟨w, hw⟩ := h d (by simp)
    refine ⟨w :: k, ?_, fun y => ?_⟩
    · rw [List.mapM_cons, hw, h1]
      rfl
    · simp only [List.mem_cons, h2, exists_eq_or_imp, hw, Option.some.injEq]
      exact or_congr eq_comm Iff.rfl

/-- `neighbors` lists the wires that are beside the wire at some segment. -/
theorem neighbors_ok {t : St K} (hS : t.sid.Ok) (hW : Wires t) {w : Id} (hw : w ∈ t.wid.live) (h0 : w ≠ 0) :
    ∃ k, neighbors t w = .ok k ∧ ∀ y, y ∈ k ↔ Share t w y := by
  obtain ⟨lc, hc⟩ := hW.cyc w hw h0
  obtain ⟨d, d1, d2, d3⟩ := hW.seg w hw h0
  obtain ⟨a, ha⟩ := hc.path
  obtain ⟨l, p1, p2, p3⟩ := path_from ha hc.nd ((hc.mem d).2 ⟨d2, d3⟩)
  have hm : ∀ x, x ∈ d :: l ↔ x.1 ∈ t.sid.live ∧ t.wire x = some w := fun x => by rw [p2.mem_iff, hc.mem]
  have hall : wireAll t w = .ok (d :: l) := by
    unfold wireAll
    rw [if_neg (hW.par w hw h0), d1]
    refine walkGo_ok p1 (by simp) (List.nodup_cons.1 p3).1 (List.nodup_cons.1 p3).1 ?_
    have := length_le_two_mul p3 (fun k hk => hS.lt _ ((hm k).1 hk).1)
    unfold fuel
    omega
  obtain ⟨k, k1, k2⟩ := mapM_need (l := d :: l) (f := fun h => t.wire (flip h)) fun x hx => by
    obtain ⟨y, y1, _⟩ := hW.lab (flip x) ((hm x).1 hx).1
    exact ⟨y, y1⟩
  refine ⟨k, ?_, fun y => ?_⟩
  · unfold neighbors
    rw [hall]
    exact k1
  · rw [k2]
    constructor
    · rintro ⟨x, x1, x2⟩
      exact ⟨x, ((hm x).1 x1).1, ((hm x).1 x1).2, x2⟩
    · rintro ⟨x, x1, x2, x3⟩
      exact ⟨x, (hm x).2 ⟨x1, x2⟩, x3⟩

theorem setParent_self {w x : Id} {t : St K} (h : UpTree t) (hp : t.parent w = some w) :
    ∃ t', setParent w (some x) t = .ok t' := by
  unfold setParent leaveParent
  rw [hp]
  simp [check, bind, Except.bind]

/-- The state differs in the parents and the children of the wires only. -/
def SameBut (t t' : St K) : Prop := ∃ P C, t' = { t with parent := P, childs := C }

theorem SameBut.refl (t : St K) : SameBut t t := ⟨t.parent, t.childs, rfl⟩

theorem SameBut.trans {t t' t'' : St K} (h1 : SameBut t t') (h2 : SameBut t' t'') : SameBut t t'' := by
  obtain ⟨P, C, rfl⟩ := h1
  obtain ⟨P', C', rfl⟩ := h2
  exact ⟨P', C', rfl⟩

/-- One outer wire is hung under its parent. -/
theorem Half.hang1 {t : St K} {par : Id → Option Id} (h : Half t par) {w p : Id} (hw : w ∈ t.wid.live) (hs : t.parent w = some w)
    (hp : par w = some p) : ∃ t', setParent w (some p) t = .ok t' ∧ Half t' par ∧ SameBut t t' ∧ t'.parent = upd t.parent w (some p) := by
  obtain ⟨t', h1⟩ := setParent_self (x := p) h.tree hs
  have hw0 := h.nest.nz hp
  obtain ⟨p', e1, hpl⟩ := h.nest.up w hw hw0
  rw [hp] at e1
  cases e1
  have hT := setParent_up h.tree hw hw0 hpl h1
  obtain ⟨_, hc⟩ := setParent_childs h.tree.toTree hw hw0 h1
  obtain ⟨C, rfl⟩ := setParent_eq h1
  refine ⟨_, h1, ⟨h.sids, ?_, hT, ?_, h.nest, ?_⟩, ⟨_, C, rfl⟩, rfl⟩
  · obtain ⟨a, b, c, d, e⟩ := h.wires
    refine ⟨a, b, fun x hx h0 => ?_, d, fun x hx h0 => ?_⟩
    · obtain ⟨l, hl⟩ := c x hx h0
      exact ⟨l, hl.ne, hl.nd, hl.path, hl.mem⟩
    · by_cases hx' : x = w
      · subst hx'
        simp [upd]
      · simp only [upd, Function.update_of_ne hx']
        exact e x hx h0
  · intro x hx hxc
    rcases (hc x hx x).1 hxc with ⟨rfl, rfl⟩ | ⟨_, h3⟩
    · exact h.nest.self hw hp
    · exact h.self x hx h3
  · intro x hx
    by_cases hx' : x = w
    · subst hx'
      left
      simp only [upd, Function.update_self]
      exact hp.symm
    · simp only [upd, Function.update_of_ne hx']
      exact h.half x hx

/-- The wires that are still their own parents. -/
def undone (t : St K) : List Id := t.wid.live.filter fun w => t.parent w = some w

theorem filter_length_lt {l : List Id} {p p' : Id → Bool} {w : Id} (h : ∀ x ∈ l, p' x = true → p x = true) (hw : w ∈ l)
    (h1 : p w = true) (h2 : p' w = false) : (l.filter p').length < (l.filter p).length := by
  rw [← List.countP_eq_length_filter, ← List.countP_eq_length_filter]
  induction l with
  | nil => simp at hw
  | cons x l ih =>
    have hl : l.countP p' ≤ l.countP p := List.countP_mono_left fun y hy => h y (by simp [hy])
    rw [List.countP_cons, List.countP_cons]
    rcases List.mem_cons.1 hw with rfl | hw
    · rw [h1, h2]
      simp
      omega
    · have := ih (fun y hy => h y (by simp [hy])) hw
      have := h x (by simp)
      cases hx : p' x
      · split_ifs <;> first | omega | simp_all
      · simp only [this hx, if_true]
        omega

theorem undone_lt {t t' : St K} {w p : Id} (hw : w ∈ t.wid.live) (hs : t.parent w = some w) (hp : p ≠ w) (hb : SameBut t t')
    (hpar : t'.parent = upd t.parent w (some p)) : (undone t').length < (undone t).length := by
  obtain ⟨P, C, rfl⟩ := hb
  simp only at hpar
  subst hpar
  refine filter_length_lt (w := w) (fun x _ hx => ?_) hw (by simpa using hs) (by simpa [upd] using hp)
  simp only [decide_eq_true_eq] at hx ⊢
  by_cases hxw : x = w
  · rw [hxw]; exact hs
  · simpa [upd, Function.update_of_ne hxw] using hx

/-- The outer wires that are inside the hole and the hole itself are not left over a segment. -/
theorem Half.step {t : St K} {par : Id → Option Id} (H : Half t par) {h a b : Id} (hh : ¬ Around (· ∈ t.qid.live) t.outer h)
    (hb : b = h ∨ (Around (· ∈ t.qid.live) t.outer b ∧ par b = some h)) (hs : Share t b a) :
    a = h ∨ (Around (· ∈ t.qid.live) t.outer a ∧ par a = some h) := by
  have hadj := H.nest.adj b a hs
  rcases hb with rfl | ⟨h1, h2⟩
  · rcases hadj with rfl | ⟨h3, _⟩ | ⟨h3, _⟩ | ⟨h3, _, h4⟩
    · exact Or.inl rfl
    · exact absurd h3 hh
    · exact absurd h3 hh
    · exact Or.inr ⟨h3, h4⟩
  · rcases hadj with rfl | ⟨_, h3, h4⟩ | ⟨_, _, h4⟩ | ⟨_, h4, _⟩
    · exact Or.inr ⟨h1, h2⟩
    · exact Or.inr ⟨h3, by rw [← h4]; exact h2⟩
    · rw [h2] at h4
      exact Or.inl (Option.some.inj h4).symm
    · exact absurd h1 h4

/-- Nothing is undone from one state to the other. -/
structure Hung (t t' : St K) (par : Id → Option Id) : Prop where
  same : SameBut t t'
  half : Half t' par
  keep : ∀ x ∈ t.wid.live, t.parent x = par x → t'.parent x = par x

theorem Hung.refl {t : St K} {par : Id → Option Id} (H : Half t par) : Hung t t par := ⟨.refl t, H, fun _ _ h => h⟩

theorem Hung.trans {t t' t'' : St K} {par : Id → Option Id} (h1 : Hung t t' par) (h2 : Hung t' t'' par) : Hung t t'' par := by
  refine ⟨h1.same.trans h2.same, h2.half, fun x hx h => h2.keep x ?_ (h1.keep x hx h)⟩
  obtain ⟨P, C, rfl⟩ := h1.same
  exact hx

/-- The queue is worked off. -/
theorem hang_ok {par : Id → Option Id} {h : Id} : ∀ (m : Nat) (k : List Id) (t : St K), (undone t).length = m → Half t par →
    ¬ Around (· ∈ t.qid.live) t.outer h → h ∈ t.wid.live →
    (∀ y ∈ k, y ∈ t.wid.live ∧ (y = h ∨ (Around (· ∈ t.qid.live) t.outer y ∧ par y = some h))) →
    (∀ x, (x = h ∨ (Around (· ∈ t.qid.live) t.outer x ∧ par x = some h ∧ t.parent x = some h)) → ∀ y, Share t x y →
      t.parent y = par y ∨ y ∈ k) →
    ∃ t', Hung t t' par ∧
      (∀ x ∈ t.wid.live, Around (· ∈ t.qid.live) t.outer x → par x = some h → t'.parent x = par x) ∧
      (∀ x, par x ≠ some h → t'.parent x = t.parent x) ∧ ∃ n0, ∀ n ≥ n0, hang h n k t = .ok t' := by
  intro m
  induction m using Nat.strong_induction_on with
  | _ m IH =>
    intro k t
    induction k with
    | nil =>
      intro _ H hh hl _ hi
      refine ⟨t, .refl H, fun x hx ha hp => ?_, fun _ _ => rfl, 0, fun n _ => ?_⟩
      · obtain ⟨q, hq, he⟩ := id ha
        have hq0 : q ≠ 0 := by
          rintro rfl
          rw [← he, H.nest.o0, H.nest.p0] at hp
          cases hp
        have hc := H.nest.comp q hq hq0 h (by rw [he]; exact hp)
        rw [he] at hc
        have key : x = h ∨ (Around (· ∈ t.qid.live) t.outer x ∧ par x = some h ∧ t.parent x = some h) := by
          clear hp ha hx he
          induction hc using Relation.ReflTransGen.head_induction_on with
          | refl => exact Or.inl rfl
          | @head a b hab _ ih =>
            have h1 := (hi b ih a hab.symm).resolve_right (by simp)
            rcases H.step hh (ih.imp id fun h => ⟨h.1, h.2.1⟩) hab.symm with h2 | ⟨h2, h3⟩
            · exact Or.inl h2
            · exact Or.inr ⟨h2, h3, by rw [h1]; exact h3⟩
        rcases key with h1 | ⟨_, h1, h2⟩
        · exact absurd (h1 ▸ ha) hh
        · rw [h1, h2]
      · cases n <;> rfl
    | cons w k ih =>
      intro hm H hh hl hk hi
      obtain ⟨hw, hwc⟩ := hk w (by simp)
      by_cases hs : t.parent w = some w
      · have hwp : Around (· ∈ t.qid.live) t.outer w ∧ par w = some h := by
          rcases hwc with rfl | h1
          · rcases H.half w hw with h2 | h2
            · rw [h2] at hs
              exact absurd hs (H.nest.self hw)
            · exact absurd h2.2 hh
          · exact h1
        have hne : h ≠ w := fun e => hh (e ▸ hwp.1)
        obtain ⟨t1, e1, H1, hb, hpar⟩ := H.hang1 hw hs hwp.2
        have hlt := undone_lt hw hs hne hb hpar
        have hkeep : ∀ x, t.parent x = par x → t1.parent x = par x := by
          intro x hx
          rw [hpar]
          by_cases hxw : x = w
          · rw [hxw]
            simp only [upd, Function.update_self]
            exact hwp.2.symm
          · simp only [upd, Function.update_of_ne hxw]
            exact hx
        have hwt : t1.parent w = par w := by
          rw [hpar]
          simp only [upd, Function.update_self]
          exact hwp.2.symm
        obtain ⟨P, C, rfl⟩ := id hb
        obtain ⟨j, j1, j2⟩ := neighbors_ok H1.sids H1.wires hw (H.nest.nz hwp.2)
        obtain ⟨t', g1, g2, g4, n0, g3⟩ := IH _ (by rw [← hm]; exact hlt) (k ++ j) _ rfl H1 hh hl (by
            intro y hy
            rcases List.mem_append.1 hy with hy | hy
            · exact hk y (by simp [hy])
            · have hsh := (j2 y).1 hy
              exact ⟨(H1.nest.shw _ _ hsh).2.1, H1.step hh (Or.inr hwp) hsh⟩) (by
            intro x hx y hxy
            by_cases hxw : x = w
            · subst hxw
              exact Or.inr (List.mem_append.2 (Or.inr ((j2 y).2 hxy)))
            · have hx' : x = h ∨ (Around (· ∈ t.qid.live) t.outer x ∧ par x = some h ∧ t.parent x = some h) := by
                refine hx.imp id fun ⟨a, b, c⟩ => ⟨a, b, ?_⟩
                rw [hpar] at c
                simpa only [upd, Function.update_of_ne hxw] using c
              rcases hi x hx' y hxy with h1 | h1
              · exact Or.inl (hkeep y h1)
              · rcases List.mem_cons.1 h1 with rfl | h1
                · exact Or.inl hwt
                · exact Or.inr (List.mem_append.2 (Or.inl h1)))
        refine ⟨t', ?_, g2, fun x hx => ?_, n0 + 1, fun n hn => ?_⟩
        · exact Hung.trans ⟨hb, H1, fun x _ hx => hkeep x hx⟩ g1
        · rw [g4 x hx, hpar]
          have hxw : x ≠ w := by
            rintro rfl
            exact hx hwp.2
          simp only [upd, Function.update_of_ne hxw]
        · obtain ⟨n, rfl⟩ : ∃ n', n = n' + 1 := ⟨n - 1, by omega⟩
          simp only [hang]
          rw [if_pos hs, e1]
          simp only [bind, Except.bind]
          rw [j1]
          exact g3 n (by omega)
      · have hd : t.parent w = par w := (H.half w hw).resolve_right fun h1 => hs h1.1
        obtain ⟨t', g1, g2, g4, n0, g3⟩ := ih hm H hh hl (fun y hy => hk y (by simp [hy])) (by
          intro x hx y hxy
          rcases hi x hx y hxy with h1 | h1
          · exact Or.inl h1
          · rcases List.mem_cons.1 h1 with rfl | h1
            · exact Or.inl hd
            · exact Or.inr h1)
        refine ⟨t', g1, g2, g4, n0 + 1, fun n hn => ?_⟩
        obtain ⟨n, rfl⟩ : ∃ n', n = n' + 1 := ⟨n - 1, by omega⟩
        simp only [hang]
        rw [if_neg hs]
        exact g3 n (by omega)

/-- The outer wires inside each hole are all hung under it, or none is. -/
def AllOrNone (t : St K) (par : Id → Option Id) : Prop := ∀ h,
  (∀ x ∈ t.wid.live, Around (· ∈ t.qid.live) t.outer x → par x = some h → t.parent x = par x) ∨
  ∀ x ∈ t.wid.live, Around (· ∈ t.qid.live) t.outer x → par x = some h → t.parent x ≠ par x

/-- One hole. -/
theorem hang_hole {t : St K} {par : Id → Option Id} (H : Half t par) (A : AllOrNone t par) {h : Id} (hl : h ∈ t.wid.live) (h0 : h ≠ 0)
    (hh : ¬ Around (· ∈ t.qid.live) t.outer h) : ∃ k t', neighbors t h = .ok k ∧ Hung t t' par ∧ AllOrNone t' par ∧
      (∀ x ∈ t.wid.live, Around (· ∈ t.qid.live) t.outer x → par x = some h → t'.parent x = par x) ∧
      ∃ n0, ∀ n ≥ n0, hang h n k t = .ok t' := by
  obtain ⟨k, k1, k2⟩ := neighbors_ok H.sids H.wires hl h0
  have hc : ∀ x, Around (· ∈ t.qid.live) t.outer x → par x = some h → t.parent x = some h → ∀ y, Share t x y →
      t.parent y = par y ∨ y ∈ k := by
    intro x h1 h2 h3 y hxy
    left
    obtain ⟨hx, hy, _⟩ := H.nest.shw x y hxy
    rcases A h with h4 | h4
    · rcases H.step hh (Or.inr ⟨h1, h2⟩) hxy with rfl | ⟨h5, h6⟩
      · exact (H.half y hy).resolve_right fun h5 => hh h5.2
      · exact h4 y hy h5 h6
    · exact absurd (by rw [h3, h2]) (h4 x hx h1 h2)
  obtain ⟨t', g1, g2, g4, g3⟩ := hang_ok _ k t rfl H hh hl (fun y hy => ⟨(H.nest.shw _ _ ((k2 y).1 hy)).2.1,
    H.step hh (Or.inl rfl) ((k2 y).1 hy)⟩) (by
      rintro x (rfl | ⟨a, b, c⟩) y hxy
      · exact Or.inr ((k2 y).2 hxy)
      · exact hc x a b c y hxy)
  refine ⟨k, t', k1, g1, ?_, g2, g3⟩
  obtain ⟨P, C, rfl⟩ := g1.same
  intro h'
  by_cases he : h' = h
  · exact Or.inl fun x hx ha hp => g2 x hx ha (he ▸ hp)
  · refine (A h').imp (fun h1 x hx ha hp => ?_) (fun h1 x hx ha hp => ?_)
    · rw [g4 x (by rw [hp]; simpa using he)]
      exact h1 x hx ha hp
    · rw [g4 x (by rw [hp]; simpa using he)]
      exact h1 x hx ha hp

/-- The holes of a list. -/
theorem hangAll_ok {par : Id → Option Id} {l : List Id} : ∀ {t : St K}, Half t par → AllOrNone t par →
    (∀ h ∈ l, h ∈ t.wid.live ∧ h ≠ 0 ∧ ¬ Around (· ∈ t.qid.live) t.outer h) → ∃ t', Hung t t' par ∧ AllOrNone t' par ∧
      (∀ x ∈ t.wid.live, Around (· ∈ t.qid.live) t.outer x → ∀ h ∈ l, par x = some h → t'.parent x = par x) ∧
      ∃ n0, ∀ n ≥ n0, hangAll n l t = .ok t' := by
  induction l with
  | nil => exact fun {t} H A _ => ⟨t, .refl H, A, by simp, 0, fun _ _ => rfl⟩
  | cons h l ih =>
    intro t H A hl
    obtain ⟨k, t1, e1, g1, A1, g2, n1, g3⟩ := hang_hole H A (hl h (by simp)).1 (hl h (by simp)).2.1 (hl h (by simp)).2.2
    obtain ⟨P, C, rfl⟩ := g1.same
    obtain ⟨t', f1, A2, f2, n2, f3⟩ := ih g1.half A1 (fun x hx => hl x (by simp [hx]))
    refine ⟨t', g1.trans f1, A2, fun x hx ha y hy hp => ?_, n1 + n2, fun n hn => ?_⟩
    · rcases List.mem_cons.1 hy with rfl | hy
      · exact f1.keep x hx (g2 x hx ha hp)
      · exact f2 x hx ha y hy hp
    · simp only [hangAll]
      rw [e1]
      simp only [bind, Except.bind]
      rw [g3 n (by omega)]
      exact f3 n (by omega)

/-- The holes of the polygons of a list. -/
theorem hangPolys_ok {par : Id → Option Id} {l : List Id} : ∀ {t : St K}, Half t par → AllOrNone t par → (∀ q ∈ l, q ∈ t.qid.live) →
    ∃ t', Hung t t' par ∧ AllOrNone t' par ∧
      (∀ x ∈ t.wid.live, Around (· ∈ t.qid.live) t.outer x → ∀ h ∈ t.wid.live, par x = some h → ∀ q ∈ l, par h = some (t.outer q) →
        t'.parent x = par x) ∧ ∃ n0, ∀ n ≥ n0, hangPolys n l t = .ok t' := by
  induction l with
  | nil => exact fun {t} H A _ => ⟨t, .refl H, A, by simp, 0, fun _ _ => rfl⟩
  | cons q l ih =>
    intro t H A hl
    have hq := hl q (by simp)
    have ho := (H.nest.outs q hq).1
    have hch : ∀ h, h ∈ t.childs (t.outer q) ↔ h ∈ t.wid.live ∧ par h = some (t.outer q) := by
      intro h
      constructor
      · intro hc
        obtain ⟨h1, h2⟩ := H.tree.child ho hc
        refine ⟨h1, ?_⟩
        rcases H.half h h1 with h3 | ⟨h3, _⟩
        · rw [← h3]; exact h2
        · rw [h3] at h2
          cases h2
          exact absurd hc (H.self _ ho)
      · rintro ⟨h1, h2⟩
        rw [H.tree.childs_iff ho h1 (fun e => H.nest.self h1 (by rw [h2, e]))]
        rcases H.half h h1 with h3 | ⟨_, h3⟩
        · rw [h3]; exact h2
        · exact absurd h3 (H.nest.child h1 hq h2).2
    obtain ⟨t1, g1, A1, g2, n1, g3⟩ := hangAll_ok H A (l := t.childs (t.outer q)) (fun h hh => by
      obtain ⟨h1, h2⟩ := (hch h).1 hh
      exact ⟨h1, H.nest.nz h2, (H.nest.child h1 hq h2).2⟩)
    obtain ⟨P, C, rfl⟩ := g1.same
    obtain ⟨t', f1, A2, f2, n2, f3⟩ := ih g1.half A1 (fun x hx => hl x (by simp [hx]))
    refine ⟨t', g1.trans f1, A2, fun x hx ha h hh hp q' hq' hp' => ?_, n1 + n2, fun n hn => ?_⟩
    · rcases List.mem_cons.1 hq' with rfl | hq'
      · exact f1.keep x hx (g2 x hx ha h ((hch h).2 ⟨hh, hp'⟩) hp)
      · exact f2 x hx ha h hh hp q' hq' hp'
    · simp only [hangPolys]
      rw [g3 n (by omega)]
      exact f3 n (by omega)

/-- `set_wire_parents` gives every outer wire its parent, and ends. -/
theorem setWireParents_ok {t : St K} {par : Id → Option Id} (H : Half t par) (A : AllOrNone t par) :
    ∃ t', SameBut t t' ∧ UpTree t' ∧ (∀ w ∈ t.wid.live, t'.parent w = par w) ∧ ∃ n0, ∀ n ≥ n0, setWireParents n t = .ok t' := by
  obtain ⟨t', h1, _, h2, h3⟩ := hangPolys_ok H A (l := t.qid.live) (fun _ h => h)
  refine ⟨t', h1.same, h1.half.tree, fun w hw => ?_, h3⟩
  rcases H.half w hw with h4 | ⟨_, ha⟩
  · exact h1.keep w hw h4
  · by_cases hw0 : w = 0
    · subst hw0
      refine h1.keep 0 hw ?_
      rw [H.tree.top, H.nest.p0]
    · obtain ⟨p, hp, hpl⟩ := H.nest.up w hw hw0
      obtain ⟨q, hq, hqw⟩ := ha
      have hpn := H.nest.hole q hq (by rintro rfl; exact hw0 (by rw [← hqw]; exact H.nest.o0)) p (by rw [hqw]; exact hp)
      obtain ⟨q', _, hq1, _⟩ := H.nest.pols p hpl
      obtain ⟨hq2, hq3⟩ := H.nest.inner hpl hq1 hpn
      exact h2 w hw ⟨q, hq, hqw⟩ p hpl hp q' hq2 hq3

end Verif.Decomp
