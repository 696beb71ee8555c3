import Verif.Decomp.Model
import Verif.Decomp.Path
import Mathlib.Data.Set.Basic
import Mathlib.Data.Set.Insert
import Mathlib.Tactic.Tauto

/-! Elementary changes: loops around points, joining and disconnecting ends of segments. -/
namespace Verif.Decomp

variable {K : Type}

theorem bind_ok {α β : Type} {x : Except Err α} {f : α → Except Err β} {b : β} :
    (x >>= f) = .ok b ↔ ∃ a, x = .ok a ∧ f a = .ok b := by
  cases x with
  | error e => simp [bind, Except.bind]
  | ok a => simp [bind, Except.bind]

theorem ok_inj {α : Type} {a b : α} : (Except.ok a : Except Err α) = .ok b ↔ a = b := by simp

theorem check_ok {p : Prop} [Decidable p] {u : Unit} : check p = .ok u ↔ p := by
  unfold check
  split <;> simp_all

theorem need_ok {α : Type} {o : Option α} {a : α} : need o = .ok a ↔ o = some a := by
  cases o <;> simp [need]

theorem removeSet_ok {i : Id} {l l' : List Id} : removeSet i l = .ok l' ↔ i ∈ l ∧ l' = l.erase i := by
  unfold removeSet
  split
  · simp only [Except.ok.injEq]
    constructor
    · rintro rfl; exact ⟨by assumption, rfl⟩
    · rintro ⟨_, rfl⟩; rfl
  · simp_all

@[simp] theorem flip_flip (h : HE) : flip (flip h) = h := by simp [flip]
@[simp] theorem flip_fst (h : HE) : (flip h).1 = h.1 := rfl
@[simp] theorem flip_mk (e : Id) (b : Bool) : flip (e, b) = (e, !b) := rfl
theorem flip_ne (h : HE) : flip h ≠ h := by
  obtain ⟨e, b⟩ := h
  cases b <;> simp [flip]
theorem flip_inj {h k : HE} (e : flip h = flip k) : h = k := by
  rw [← flip_flip h, e, flip_flip]
theorem eq_or_flip {h k : HE} (e : h.1 = k.1) : h = k ∨ h = flip k := by
  obtain ⟨a, x⟩ := h
  obtain ⟨b, y⟩ := k
  subst e
  cases x <;> cases y <;> simp [flip]

/-- Ids: keys are different, ids waiting for use are no keys, all are below the counter. -/
structure Ids.Ok (m : Ids) : Prop where
  nd : m.live.Nodup
  fnd : m.free.Nodup
  dis : ∀ i ∈ m.free, i ∉ m.live
  lt : ∀ i ∈ m.live, i < m.nxt
  flt : ∀ i ∈ m.free, i < m.nxt

theorem Ids.append_ok {m : Ids} (h : m.Ok) :
    m.append.1 ∉ m.live ∧ m.append.2.live = m.live ++ [m.append.1] ∧ m.append.2.Ok := by
  obtain ⟨nd, fnd, dis, lt, flt⟩ := h
  unfold Ids.append
  cases hf : m.free with
  | nil =>
    have h1 : m.nxt ∉ m.live := fun hm => absurd (lt _ hm) (Nat.lt_irrefl _)
    refine ⟨h1, rfl, ?_⟩
    constructor
    · simp only [List.nodup_append, nd, true_and]
      simp only [List.nodup_cons, List.not_mem_nil, not_false_eq_true, List.nodup_nil, and_self, List.mem_cons,
        or_false, true_and]
      rintro a ha b rfl rfl
      exact h1 ha
    · simp
    · simp
    · intro i hi
      simp only [List.mem_append, List.mem_singleton] at hi
      rcases hi with hi | rfl
      · exact Nat.lt_succ_of_lt (lt i hi)
      · exact Nat.lt_succ_self _
    · simp
  | cons i rest =>
    have hi : i ∉ m.live := dis i (by simp [hf])
    have hr : i ∉ rest ∧ rest.Nodup := by simpa [hf] using fnd
    refine ⟨hi, rfl, ?_⟩
    constructor
    · simp only [List.nodup_append, nd, true_and]
      simp only [List.nodup_cons, List.not_mem_nil, not_false_eq_true, List.nodup_nil, and_self, List.mem_cons,
        or_false, true_and]
      rintro a ha b rfl rfl
      exact hi ha
    · exact hr.2
    · intro j hj
      simp only [List.mem_append, List.mem_singleton, not_or]
      refine ⟨dis j (by simp [hf, hj]), ?_⟩
      rintro rfl
      exact hr.1 hj
    · intro j hj
      simp only [List.mem_append, List.mem_singleton] at hj
      rcases hj with hj | rfl
      · exact lt j hj
      · exact flt j (by simp [hf])
    · intro j hj
      exact flt j (by simp [hf, hj])

theorem Ids.remove_ok {m m' : Ids} {i : Id} (h : m.Ok) (hr : m.remove i = .ok m') :
    i ∈ m.live ∧ m'.live = m.live.erase i ∧ m'.Ok ∧ ∀ j, j ∈ m'.live ↔ j ≠ i ∧ j ∈ m.live := by
  unfold Ids.remove at hr
  split at hr
  · next hi =>
    simp only [Except.ok.injEq] at hr
    subst hr
    obtain ⟨nd, fnd, dis, lt, flt⟩ := h
    refine ⟨hi, rfl, ?_, fun j => nd.mem_erase_iff⟩
    constructor
    · exact nd.erase i
    · simp only [List.nodup_cons, fnd, and_true]
      exact fun h => dis i h hi
    · intro j hj
      simp only [List.mem_cons] at hj
      simp only [nd.mem_erase_iff, not_and]
      rintro hne
      rcases hj with rfl | hj
      · exact absurd rfl hne
      · exact dis j hj
    · intro j hj
      exact lt j (List.mem_of_mem_erase hj)
    · intro j hj
      simp only [List.mem_cons] at hj
      rcases hj with rfl | hj
      · exact lt _ hi
      · exact flt j hj
  · simp at hr

/-! ### Loops -/

/-- Next end around a point. -/
def rot (s : St K) (d : HE) : Option HE := (s.next d).map flip

theorem aroundGo_ok {s : St K} {start : HE} {l : List HE} : ∀ {n : Nat} {h : HE}, Path (rot s) h l start → l ≠ [] →
    start ∉ l.tail → l.length ≤ n → aroundGo s start n h = .ok l := by
  induction l with
  | nil => intro n h _ hl; exact absurd rfl hl
  | cons x l ih =>
    intro n h hp _ hs hn
    obtain ⟨rfl, y, hy, hp⟩ := hp
    cases n with
    | zero => simp at hn
    | succ n =>
      unfold rot at hy
      obtain ⟨k, hk, rfl⟩ := Option.map_eq_some_iff.1 hy
      unfold aroundGo
      rw [hk]
      simp only [need, bind, Except.bind]
      cases l with
      | nil =>
        simp only [Path] at hp
        simp [hp]
      | cons z l =>
        have hz := path_head hp
        simp only [List.tail_cons] at hs
        have hne : flip k ≠ start := by
          intro h
          apply hs
          simp [← h, hz]
        rw [if_neg hne]
        rw [ih hp (by simp) (fun h => hs (by simp only [List.tail_cons] at h; simp [h])) (by simpa using hn)]

theorem firstOther_ok {s : St K} {start : HE} {e : Id} {l : List HE} : ∀ {n : Nat} {h : HE},
    Path (rot s) h l start → l ≠ [] → start ∉ l.tail → l.length ≤ n →
    firstOther s start e n h = .ok (l.find? fun d => decide (d.1 ≠ e)) := by
  induction l with
  | nil => intro n h _ hl; exact absurd rfl hl
  | cons x l ih =>
    intro n h hp _ hs hn
    obtain ⟨rfl, y, hy, hp⟩ := hp
    cases n with
    | zero => simp at hn
    | succ n =>
      unfold rot at hy
      obtain ⟨k, hk, rfl⟩ := Option.map_eq_some_iff.1 hy
      unfold firstOther
      by_cases hx : h.1 = e
      · rw [if_neg (by simpa using hx), hk]
        simp only [need, bind, Except.bind]
        have hf : (h :: l).find? (fun d => decide (d.1 ≠ e)) = l.find? fun d => decide (d.1 ≠ e) := by
          simp [List.find?_cons, hx]
        rw [hf]
        cases l with
        | nil =>
          simp only [Path] at hp
          simp [hp]
        | cons z l =>
          have hz := path_head hp
          simp only [List.tail_cons] at hs
          have hne : flip k ≠ start := by
            intro h
            apply hs
            simp [← h, hz]
          rw [if_neg hne]
          rw [ih hp (by simp) (fun h => hs (by simp only [List.tail_cons] at h; simp [h])) (by simpa using hn)]
      · rw [if_pos (by simpa using hx)]
        simp [List.find?_cons, hx]

theorem walkGo_ok {s : St K} {start stop : HE} {l : List HE} : ∀ {n : Nat} {h : HE}, Path s.next h l stop → l ≠ [] →
    stop ∉ l.tail → start ∉ l.tail → l.length ≤ n → walkGo s start stop n h = .ok l := by
  induction l with
  | nil => intro n h _ hl; exact absurd rfl hl
  | cons x l ih =>
    intro n h hp _ hs ht hn
    obtain ⟨rfl, k, hk, hp⟩ := hp
    cases n with
    | zero => simp at hn
    | succ n =>
      unfold walkGo
      rw [hk]
      simp only [need, bind, Except.bind]
      cases l with
      | nil =>
        simp only [Path] at hp
        simp [hp]
      | cons z l =>
        have hz := path_head hp
        simp only [List.tail_cons] at hs ht
        have hne : k ≠ stop := by
          intro h
          apply hs
          simp [← h, hz]
        have hne' : k ≠ start := by
          intro h
          apply ht
          simp [← h, hz]
        rw [if_neg hne]
        simp only [check, ne_eq, hne', not_false_eq_true, if_true]
        rw [ih hp (by simp) (fun h => hs (by simp only [List.tail_cons] at h; simp [h]))
          (fun h => ht (by simp only [List.tail_cons] at h; simp [h])) (by simpa using hn)]

/-! ### Links -/

/-- `l` are the ends of segments at the point `p` that are linked, in the order of the loop around `p`. Ends in `X` are not
linked. -/
structure IsRing (s : St K) (X : Set HE) (p : Id) (l : List HE) : Prop where
  nd : l.Nodup
  mem : ∀ d, d ∈ l ↔ d.1 ∈ s.sid.live ∧ s.vtx d = p ∧ d ∉ X
  path : l = [] ∨ ∃ a, Path (rot s) a l a

/-- The stored segment end of a point is one of the linked ends; it is missing only if there are none. -/
structure PsegOk (s : St K) (X : Set HE) (p : Id) (l : List HE) : Prop where
  non : s.pseg p = none → l = []
  som : ∀ d, s.pseg p = some d → d ∈ l ∨ (l = [] ∧ d ∈ X ∧ d.1 ∈ s.sid.live ∧ s.vtx d = p)

/-- Links around points. `X` are ends not linked, `Y` points whose stored segment is out of date. -/
structure Links (s : St K) (X : Set HE) (Y : Set Id) : Prop where
  sids : s.sid.Ok
  vlive : ∀ d : HE, d.1 ∈ s.sid.live → s.vtx d ∈ s.pid.live
  vne : ∀ e ∈ s.sid.live, s.vtx (e, false) ≠ s.vtx (e, true)
  ring : ∀ p ∈ s.pid.live, ∃ l, IsRing s X p l ∧ (p ∉ Y → PsegOk s X p l)

theorem Links.flip_ne {s : St K} {X : Set HE} {Y : Set Id} (h : Links s X Y) {d : HE} (hd : d.1 ∈ s.sid.live) :
    s.vtx (flip d) ≠ s.vtx d := by
  obtain ⟨e, b⟩ := d
  have := h.vne e hd
  cases b <;> simp [flip, this, this.symm]

theorem IsRing.length {s : St K} {X : Set HE} {p : Id} {l : List HE} (hs : s.sid.Ok) (h : IsRing s X p l) :
    l.length ≤ fuel s := by
  have := length_le_two_mul h.nd (fun d hd => hs.lt _ ((h.mem d).1 hd).1)
  unfold fuel
  omega

theorem IsRing.from {s : St K} {X : Set HE} {p : Id} {l : List HE} (h : IsRing s X p l) {d : HE} (hd : d ∈ l) :
    ∃ l', Path (rot s) d (d :: l') d ∧ (d :: l').Perm l ∧ (d :: l').Nodup := by
  rcases h.path with rfl | ⟨a, ha⟩
  · simp at hd
  · exact path_from ha h.nd hd

theorem around_ring {s : St K} {X : Set HE} {p : Id} {l : List HE} (hs : s.sid.Ok) (h : IsRing s X p l) {d : HE}
    (hd : d ∈ l) :
    ∃ l', around s d = .ok (d :: l') ∧ Path (rot s) d (d :: l') d ∧ (d :: l').Perm l ∧ (d :: l').Nodup := by
  obtain ⟨l', h1, h2, h3⟩ := h.from hd
  refine ⟨l', ?_, h1, h2, h3⟩
  unfold around
  refine aroundGo_ok h1 (by simp) ?_ ?_
  · simpa using (List.nodup_cons.1 h3).1
  · rw [h2.length_eq]; exact h.length hs

theorem previous_ring {s : St K} {X : Set HE} {p : Id} {l : List HE} (hs : s.sid.Ok) (h : IsRing s X p l) {d : HE}
    (hd : d ∈ l) : ∃ r ∈ l, previous s (flip d) = .ok r ∧ s.next r = some (flip d) := by
  obtain ⟨l', h1, h2, h3, h4⟩ := around_ring hs h hd
  refine ⟨(d :: l').getLast (by simp), h3.subset (List.getLast_mem _), ?_, ?_⟩
  · unfold previous
    rw [flip_flip, h1]
    simp only [bind, Except.bind, List.getLast?_eq_some_getLast (by simp : (d :: l') ≠ []), need]
  · have hne : (d :: l') ≠ [] := by simp
    rw [← List.dropLast_append_getLast hne] at h2
    have := path_last h2
    unfold rot at this
    obtain ⟨k, hk, hk'⟩ := Option.map_eq_some_iff.1 this
    rw [hk, ← hk', flip_flip]

theorem rot_of_next {s : St K} {d k : HE} (h : s.next d = some k) : rot s d = some (flip k) := by
  simp [rot, h]

theorem next_of_rot {s : St K} {d k : HE} (h : rot s d = some k) : s.next d = some (flip k) := by
  unfold rot at h
  obtain ⟨k', hk, rfl⟩ := Option.map_eq_some_iff.1 h
  simp [hk]

end Verif.Decomp
