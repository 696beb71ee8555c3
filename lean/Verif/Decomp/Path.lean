import Mathlib.Logic.Function.Basic
import Mathlib.Data.List.Nodup
import Mathlib.Data.List.Perm.Basic
import Mathlib.Data.List.Perm.Subperm
import Mathlib.Data.List.Range

/-! Closed walks of a partial function on lists. -/
namespace Verif.Decomp

variable {α : Type}

/-- Following `f` from `a` visits the members of `l` in order and then arrives at `b`. -/
def Path (f : α → Option α) : α → List α → α → Prop
  | a, [], b => a = b
  | a, x :: l, b => a = x ∧ ∃ y, f x = some y ∧ Path f y l b

theorem path_append (f : α → Option α) (l₁ l₂ : List α) (a b : α) :
    Path f a (l₁ ++ l₂) b ↔ ∃ c, Path f a l₁ c ∧ Path f c l₂ b := by
  induction l₁ generalizing a with
  | nil => simp [Path]
  | cons x l ih =>
    simp only [List.cons_append, Path, ih]
    constructor
    · rintro ⟨h, y, hy, c, h1, h2⟩
      exact ⟨c, ⟨h, y, hy, h1⟩, h2⟩
    · rintro ⟨c, ⟨h, y, hy, h1⟩, h2⟩
      exact ⟨h, y, hy, c, h1, h2⟩

theorem path_congr {f g : α → Option α} {l : List α} {a b : α} (h : ∀ x ∈ l, g x = f x) (hp : Path f a l b) :
    Path g a l b := by
  induction l generalizing a with
  | nil => exact hp
  | cons x l ih =>
    obtain ⟨rfl, y, hy, h'⟩ := hp
    exact ⟨rfl, y, by rw [h _ (by simp), hy], ih (fun z hz => h z (by simp [hz])) h'⟩

theorem path_upd [DecidableEq α] {f : α → Option α} {l : List α} {a b x : α} {v : Option α} (hx : x ∉ l)
    (hp : Path f a l b) : Path (Function.update f x v) a l b := by
  refine path_congr (fun z hz => ?_) hp
  rw [Function.update_of_ne]
  rintro rfl
  exact hx hz

/-- Last step of a path. -/
theorem path_last {f : α → Option α} {l : List α} {a b x : α} (hp : Path f a (l ++ [x]) b) : f x = some b := by
  rw [path_append] at hp
  obtain ⟨c, _, rfl, y, hy, rfl⟩ := hp
  exact hy

theorem path_snoc {f : α → Option α} {l : List α} {a b x : α} (hp : Path f a l x) (hx : f x = some b) :
    Path f a (l ++ [x]) b := (path_append f l [x] a b).2 ⟨x, hp, rfl, b, hx, rfl⟩

theorem path_head {f : α → Option α} {l : List α} {a b x : α} (hp : Path f a (x :: l) b) : a = x := hp.1

/-- A closed walk can start at any of its members. -/
theorem path_rotate {f : α → Option α} {l : List α} {a x : α} (hp : Path f a l a) (hx : x ∈ l) :
    ∃ l', Path f x (x :: l') x ∧ (x :: l').Perm l := by
  obtain ⟨s, t, rfl⟩ := List.append_of_mem hx
  rw [path_append] at hp
  obtain ⟨c, h1, h2⟩ := hp
  obtain rfl := path_head h2
  refine ⟨t ++ s, ?_, ?_⟩
  · rw [← List.cons_append, path_append]
    exact ⟨a, h2, h1⟩
  · rw [← List.cons_append]
    exact List.perm_append_comm

/-- Members of a closed walk have their successor in it. -/
theorem path_succ {f : α → Option α} {l : List α} {a x : α} (hp : Path f a l a) (hx : x ∈ l) :
    ∃ y ∈ l, f x = some y := by
  obtain ⟨l', h1, h2⟩ := path_rotate hp hx
  obtain ⟨_, y, hy, h3⟩ := h1
  refine ⟨y, h2.subset ?_, hy⟩
  cases l' with
  | nil => simp [Path] at h3; simp [h3]
  | cons z l' => simp [path_head h3]

/-- Members of a closed walk have a predecessor in it. -/
theorem path_pred {f : α → Option α} {l : List α} {a x : α} (hp : Path f a l a) (hx : x ∈ l) :
    ∃ y ∈ l, f y = some x := by
  obtain ⟨l', h1, h2⟩ := path_rotate hp hx
  have hne : (x :: l') ≠ [] := by simp
  rw [← List.dropLast_append_getLast hne] at h1
  exact ⟨(x :: l').getLast hne, h2.subset (List.getLast_mem hne), path_last h1⟩

/-- Paths that reach `b` for the first time are equal. -/
theorem path_first {f : α → Option α} {l m : List α} {a b : α} (h1 : Path f a l b) (h2 : Path f a m b)
    (hl : l ≠ []) (hm : m ≠ []) (hl' : b ∉ l.tail) (hm' : b ∉ m.tail) : l = m := by
  induction l generalizing a m with
  | nil => exact absurd rfl hl
  | cons x l ih =>
    cases m with
    | nil => exact absurd rfl hm
    | cons z m =>
      obtain ⟨rfl, y, hy, h1⟩ := h1
      obtain ⟨rfl, y', hy', h2⟩ := h2
      rw [hy] at hy'
      obtain rfl := Option.some.inj hy'
      simp only [List.tail_cons] at hl' hm'
      cases l with
      | nil =>
        simp only [Path] at h1
        subst h1
        cases m with
        | nil => rfl
        | cons w m => exact absurd (by simp [path_head h2]) hm'
      | cons u l =>
        cases m with
        | nil =>
          simp only [Path] at h2
          subst h2
          exact absurd (by simp [path_head h1]) hl'
        | cons w m =>
          rw [ih h1 h2 (by simp) (by simp)]
          · exact fun h => hl' (by simp only [List.tail_cons] at h; simp [h])
          · exact fun h => hm' (by simp only [List.tail_cons] at h; simp [h])

/-- In a closed walk without repetition two members with the same successor are the same. -/
theorem path_inj {f : α → Option α} {l : List α} {a x y z : α} (hp : Path f a l a) (hn : l.Nodup) (hx : x ∈ l)
    (hy : y ∈ l) (hfx : f x = some z) (hfy : f y = some z) : x = y := by
  obtain ⟨z', hz', hz''⟩ := path_succ hp hx
  rw [hfx] at hz''
  obtain rfl := Option.some.inj hz''
  obtain ⟨l', h1, h2⟩ := path_rotate hp hz'
  have hn' : (z :: l').Nodup := h2.nodup_iff.2 hn
  have key : ∀ u ∈ z :: l', f u = some z → u = (z :: l').getLast (by simp) := by
    intro u hu hfu
    obtain ⟨s, t, hst⟩ := List.append_of_mem hu
    have h1' := h1
    rw [hst, path_append] at h1'
    obtain ⟨c, _, hc, y', hy', h4⟩ := h1'
    rw [hfu] at hy'
    obtain rfl := Option.some.inj hy'
    cases t with
    | nil => simp [hst]
    | cons v t =>
      exfalso
      have := path_head h4
      subst this
      have hn'' := hn'
      rw [hst] at hn''
      cases s with
      | nil =>
        simp only [List.nil_append] at hst hn''
        injection hst with h5 h6
        subst h5
        simp at hn''
      | cons w s =>
        simp only [List.cons_append] at hst hn''
        injection hst with h5 h6
        subst h5
        simp at hn''
  rw [key x (h2.symm.subset hx) hfx, key y (h2.symm.subset hy) hfy]

/-- The cycle written from one member: the rest and its closing. -/
theorem path_from {f : α → Option α} {l : List α} {a x : α} (hp : Path f a l a) (hn : l.Nodup) (hx : x ∈ l) :
    ∃ l', Path f x (x :: l') x ∧ (x :: l').Perm l ∧ (x :: l').Nodup := by
  obtain ⟨l', h1, h2⟩ := path_rotate hp hx
  exact ⟨l', h1, h2, h2.nodup_iff.2 hn⟩

/-- A list of pairs without repetition whose first members are below `n` has at most `2 n` members. -/
theorem length_le_two_mul {l : List (Nat × Bool)} {n : Nat} (hn : l.Nodup) (h : ∀ d ∈ l, d.1 < n) :
    l.length ≤ 2 * n := by
  have hinj : Function.Injective (fun d : Nat × Bool => 2 * d.1 + cond d.2 1 0) := by
    rintro ⟨a, x⟩ ⟨b, y⟩ h
    cases x <;> cases y <;> simp at h ⊢ <;> omega
  have h1 : (l.map fun d : Nat × Bool => 2 * d.1 + cond d.2 1 0).Nodup := hn.map hinj
  have h2 : (l.map fun d : Nat × Bool => 2 * d.1 + cond d.2 1 0) ⊆ List.range (2 * n) := by
    intro k hk
    simp only [List.mem_map] at hk
    obtain ⟨d, hd, rfl⟩ := hk
    have := h d hd
    rw [List.mem_range]
    cases d.2 <;> simp <;> omega
  have := (h1.subperm h2).length_le
  simpa using this

end Verif.Decomp
