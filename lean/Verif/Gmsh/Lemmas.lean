import Verif.Gmsh.Model

/-! Rules for the calls, and what all calls keep. -/
namespace Verif.Gmsh
open M

variable {α β : Type}

theorem pure_apply (a : α) (s : St) : (pure a : M α) s = (.ok a, s) := rfl

theorem bind_apply (x : M α) (f : α → M β) (s : St) : (x >>= f) s = match x s with
    | (.ok a, s') => f a s'
    | (.error e, s') => (.error e, s') := rfl

theorem bind_ok {x : M α} {f : α → M β} {s s' : St} {b : β} :
    (x >>= f) s = (.ok b, s') ↔ ∃ a s1, x s = (.ok a, s1) ∧ f a s1 = (.ok b, s') := by
  rw [bind_apply]
  constructor
  · intro h
    split at h
    · rename_i a s1 hx; exact ⟨a, s1, hx, h⟩
    · exact absurd (congrArg Prod.fst h) (by simp)
  · rintro ⟨a, s1, h1, h2⟩; rw [h1]; exact h2

theorem bind_of {x : M α} {f : α → M β} {s s1 : St} {a : α} (h : x s = (.ok a, s1)) : (x >>= f) s = f a s1 := by
  rw [bind_apply, h]

theorem check_ok {c : Bool} {e : Err} {s s' : St} {u : Unit} : check c e s = (.ok u, s') ↔ c = true ∧ s' = s := by
  unfold check
  split
  · rename_i h; rw [pure_apply]; simp [h, eq_comm]
  · rename_i h; simp [fail, h]

theorem check_of {c : Bool} {e : Err} (h : c = true) (s : St) : check c e s = (.ok (), s) := by
  rw [check, if_pos h]; rfl

theorem lib_ok {e : Err} {x : Option α} {s s' : St} {a : α} : lib e x s = (.ok a, s') ↔ x = some a ∧ s' = s := by
  cases x with
  | none => simp [lib, fail]
  | some b => simp [lib, pure_apply, eq_comm]

theorem load_ok {o : Nat} {s s' : St} {b : Obj} : load o s = (.ok b, s') ↔ s.obj o = some b ∧ s' = s := by
  unfold load
  split
  · rename_i h; simp [h]
  · rename_i h; simp [h, eq_comm]

/-! ### What all calls keep -/

/-- The region exists. -/
def Known (s : St) (r : Nat) : Prop := firstId ≤ r ∧ r ≤ s.maxId

/-- Object sets have one existing region for every entity; names lead to different existing regions. -/
structure Inv (s : St) : Prop where
  max : firstId + 3 ≤ s.maxId
  len : ∀ o b, s.obj o = some b → b.regs.length = b.dts.length
  known : ∀ o b, s.obj o = some b → ∀ r ∈ b.regs, Known s r
  heap : ∀ o, s.nobj ≤ o → s.obj o = none
  names : ∀ p ∈ s.names, firstId + 3 < p.2 ∧ p.2 ≤ s.maxId
  keyNd : (s.names.map Prod.fst).Nodup
  valNd : (s.names.map Prod.snd).Nodup

/-- What only grows: regions and their dimensions, names, object sets, physical groups. -/
structure Grow (s s' : St) : Prop where
  max : s.maxId ≤ s'.maxId
  dim : ∀ r d, r ≤ s.maxId → (s.reg r).dim = some d → (s'.reg r).dim = some d
  names : s.names <+: s'.names
  nobj : s.nobj ≤ s'.nobj
  gone : ∀ o < s.nobj, s.obj o = none → s'.obj o = none
  groups : s.groups <+: s'.groups

instance : Preorder St where
  le := Grow
  le_refl s := ⟨le_refl _, fun _ _ _ h => h, List.prefix_refl _, le_refl _, fun _ _ h => h, List.prefix_refl _⟩
  le_trans a b c h1 h2 := ⟨le_trans h1.max h2.max, fun r d hr h => h2.dim r d (le_trans hr h1.max) (h1.dim r d hr h),
    h1.names.trans h2.names, le_trans h1.nobj h2.nobj, fun o ho h => h2.gone o (lt_of_lt_of_le ho h1.nobj) (h1.gone o ho h),
    h1.groups.trans h2.groups⟩

theorem Grow.le {s s' : St} (h : s ≤ s') : Grow s s' := h

/-- The call keeps `Inv`, removes no region and, if it returns, returns a value with `Q`. -/
def Safe (m : M α) (Q : α → St → Prop) (s : St) : Prop :=
  Inv (m s).2 ∧ s ≤ (m s).2 ∧ ∀ a, (m s).1 = .ok a → Q a (m s).2

theorem Safe.bind {m : M α} {f : α → M β} {Q : α → St → Prop} {R : β → St → Prop} {s : St} (h : Safe m Q s)
    (hf : ∀ a s', Inv s' → s ≤ s' → Q a s' → Safe (f a) R s') : Safe (m >>= f) R s := by
  obtain ⟨h1, h2, h3⟩ := h
  unfold Safe
  rw [bind_apply]
  rcases hm : m s with ⟨a | a, s'⟩ <;> rw [hm] at h1 h2 h3
  · exact ⟨h1, h2, fun b hb => absurd hb (by simp)⟩
  · obtain ⟨g1, g2, g3⟩ := hf a s' h1 h2 (h3 a rfl)
    exact ⟨g1, le_trans h2 g2, g3⟩

theorem Safe.pure {a : α} {Q : α → St → Prop} {s : St} (hI : Inv s) (h : Q a s) : Safe (pure a : M α) Q s :=
  ⟨hI, le_refl _, fun b hb => by cases hb; exact h⟩

theorem Safe.fail {e : Err} {Q : α → St → Prop} {s : St} (hI : Inv s) : Safe (fail e : M α) Q s :=
  ⟨hI, le_refl _, fun b hb => by cases hb⟩

theorem Safe.mono {m : M α} {Q R : α → St → Prop} {s : St} (h : Safe m Q s) (hi : ∀ a s', Q a s' → R a s') : Safe m R s :=
  ⟨h.1, h.2.1, fun a ha => hi _ _ (h.2.2 a ha)⟩

theorem Safe.check {c : Bool} {e : Err} {s : St} (hI : Inv s) : Safe (check c e) (fun _ _ => c = true) s := by
  unfold M.check
  split
  · rename_i h; exact Safe.pure hI h
  · exact Safe.fail hI

theorem Safe.lib {e : Err} {x : Option α} {s : St} (hI : Inv s) : Safe (lib e x) (fun a _ => x = some a) s := by
  cases x with
  | none => exact Safe.fail hI
  | some a => exact Safe.pure hI rfl

theorem Known.mono {s s' : St} {r : Nat} (h : Known s r) (hm : s ≤ s') : Known s' r := ⟨h.1, le_trans h.2 hm.max⟩

theorem Safe.each {f : α → M β} {Q : β → St → Prop} (hQ : ∀ b s s', s ≤ s' → Q b s → Q b s')
    {l : List α} : ∀ {s : St}, Inv s → (∀ a ∈ l, ∀ s', Inv s' → s ≤ s' → Safe (f a) Q s') →
    Safe (each f l) (fun r s' => r.length = l.length ∧ ∀ b ∈ r, Q b s') s := by
  induction l with
  | nil => intro s hI _; exact Safe.pure hI ⟨rfl, fun b hb => by simp at hb⟩
  | cons a l ih =>
    intro s hI h
    refine (h a List.mem_cons_self s hI (le_refl _)).bind fun b s1 h1 m1 q1 => ?_
    refine (ih h1 fun x hx s' hs hm => h x (List.mem_cons_of_mem _ hx) s' hs (le_trans m1 hm)).bind fun r s2 h2 m2 q2 => ?_
    refine Safe.pure h2 ⟨by simp [q2.1], fun x hx => ?_⟩
    rcases List.mem_cons.1 hx with rfl | hx
    · exact hQ _ _ _ m2 q1
    · exact q2.2 x hx

theorem known_mono (b : Nat) (s s' : St) (h : s ≤ s') (hb : Known s b) : Known s' b := hb.mono h

/-- Changes of regions do not matter for `Inv`. -/
theorem Inv.reg {s : St} (h : Inv s) (f : Nat → Reg) : Inv { s with reg := f } :=
  ⟨h.max, h.len, h.known, h.heap, h.names, h.keyNd, h.valNd⟩

theorem Inv.groups {s : St} (h : Inv s) (g : List (Option Int × List Nat × Name)) : Inv { s with groups := g } :=
  ⟨h.max, h.len, h.known, h.heap, h.names, h.keyNd, h.valNd⟩

theorem grow_regionGet (n : Name) (d : Option Int) (s : St) : s ≤ (regionGet n d s).2 := by
  refine ⟨Nat.le_succ _, fun r x hr hd => ?_, List.prefix_refl _, le_refl _, fun _ _ h => h, List.prefix_refl _⟩
  have : r ≠ s.maxId + 1 := by omega
  simp only [regionGet]
  rw [Function.update_of_ne this]
  exact hd

theorem safe_regionGet {n : Name} {d : Option Int} {s : St} (hI : Inv s) :
    Safe (regionGet n d) (fun r s' => Known s' r ∧ s'.names = s.names ∧ s.maxId < r ∧ firstId + 3 < r) s := by
  refine ⟨⟨?_, hI.len, fun o b ho r hr => (hI.known o b ho r hr).mono (grow_regionGet ..), hI.heap,
    fun p hp => ⟨(hI.names p hp).1, le_trans (hI.names p hp).2 (Nat.le_succ _)⟩, hI.keyNd, hI.valNd⟩, grow_regionGet .., ?_⟩
  · exact le_trans hI.max (Nat.le_succ _)
  · intro a ha
    cases ha
    have := hI.max
    refine ⟨⟨?_, le_refl _⟩, rfl, Nat.lt_succ_self _, ?_⟩ <;> omega

theorem safe_complete {r : Nat} {d : Int} {s : St} (hI : Inv s) (hr : Known s r) :
    Safe (complete r d) (fun r' s' => Known s' r') s := by
  unfold Safe complete
  split
  · rename_i hn
    refine ⟨hI.reg _, ⟨le_refl _, fun x c hx hc => ?_, List.prefix_refl _, le_refl _, fun _ _ h => h, List.prefix_refl _⟩,
      fun a h => by cases h; exact hr⟩
    have : x ≠ r := fun h => by rw [h, hn] at hc; cases hc
    dsimp only
    rw [Function.update_of_ne this]
    exact hc
  · split
    · exact ⟨hI, le_refl _, fun a h => by cases h; exact hr⟩
    · exact ⟨hI, le_refl _, fun a h => by cases h⟩

theorem find_mem {κ γ : Type} [DecidableEq κ] {k : κ} {a : γ} : ∀ {l : List (κ × γ)}, find k l = some a → (k, a) ∈ l := by
  intro l
  induction l with
  | nil => intro h; cases h
  | cons p l ih =>
    intro h
    rw [find] at h
    split at h
    · rename_i hk; cases h; subst hk; exact List.mem_cons_self
    · exact List.mem_cons_of_mem _ (ih h)

theorem find_none {κ γ : Type} [DecidableEq κ] {k : κ} : ∀ {l : List (κ × γ)}, find k l = none ↔ k ∉ l.map Prod.fst := by
  intro l
  induction l with
  | nil => simp [find]
  | cons p l ih =>
    rw [find]
    split
    · rename_i hk; simp [hk]
    · rename_i hk; rw [ih]; simp [Ne.symm hk]

theorem find_some_of_nodup {κ γ : Type} [DecidableEq κ] {k : κ} {a : γ} : ∀ {l : List (κ × γ)}, (l.map Prod.fst).Nodup →
    (k, a) ∈ l → find k l = some a := by
  intro l
  induction l with
  | nil => intro _ h; simp at h
  | cons p l ih =>
    intro hn h
    rw [List.map_cons, List.nodup_cons] at hn
    rw [find]
    rcases List.mem_cons.1 h with h | h
    · rw [← h, if_pos rfl]
    · rw [if_neg (fun hk : p.1 = k => hn.1 (hk ▸ List.mem_map_of_mem h)), ih hn.2 h]

theorem safe_getRegionName {n : Name} {s : St} (hI : Inv s) : Safe (getRegionName n) (fun r s' => Known s' r) s := by
  unfold getRegionName
  refine (safe_regionGet hI).bind fun new s1 h1 _ q1 => ?_
  unfold Safe keepName
  split
  · rename_i r hr
    refine ⟨h1, le_refl _, fun a ha => ?_⟩
    cases ha
    have := h1.names _ (find_mem hr)
    have h2 : firstId + 3 < r ∧ r ≤ s1.maxId := this
    exact ⟨by show firstId ≤ _; omega, h2.2⟩
  · rename_i hr
    refine ⟨⟨h1.max, h1.len, h1.known, h1.heap, ?_, ?_, ?_⟩, ⟨le_refl _, fun _ _ _ h => h, List.prefix_append _ _, le_refl _,
      fun _ _ h => h, List.prefix_refl _⟩, fun a ha => ?_⟩
    · intro p hp
      rcases List.mem_append.1 hp with hp | hp
      · exact h1.names p hp
      · rw [List.mem_singleton.1 hp]; exact ⟨q1.2.2.2, q1.1.2⟩
    · rw [List.map_append, List.nodup_append]
      refine ⟨h1.keyNd, by simp, fun x hx y hy => ?_⟩
      rw [List.map_singleton, List.mem_singleton] at hy
      intro h
      subst h
      have hy : x = n := hy
      subst hy
      exact (find_none.1 hr) hx
    · rw [List.map_append, List.nodup_append]
      refine ⟨h1.valNd, by simp, fun x hx y hy => ?_⟩
      rw [List.map_singleton, List.mem_singleton] at hy
      obtain ⟨p, hp, rfl⟩ := List.mem_map.1 hx
      rw [q1.2.1] at hp
      have := (hI.names p hp).2
      have := q1.2.2.1
      rw [hy]
      show p.2 ≠ new
      omega
    · cases ha; exact q1.1

theorem mkSet_ok {dts : List DimTag} {regs : List Nat} {s s' : St} {o : Nat} (h : mkSet dts regs s = (.ok o, s')) :
    o = s.nobj ∧ ∃ rs, rs.length = dts.length ∧ (∀ r ∈ rs, r ∈ regs) ∧ (regs.length = dts.length → rs = regs) ∧
      (∀ r, regs = [r] → rs = dts.map fun _ => r) ∧
      s' = { s with nobj := s.nobj + 1, obj := Function.update s.obj s.nobj (some ⟨dts, rs⟩) } := by
  unfold mkSet at h
  split at h
  · rename_i r
    obtain ⟨h1, rfl⟩ := Prod.mk.injEq .. ▸ h
    cases h1
    refine ⟨rfl, _, by simp, fun x hx => by simp at hx; simp [hx.2], ?_, fun r' hr => by cases hr; rfl, rfl⟩
    intro hl
    obtain ⟨a, ha⟩ := List.length_eq_one_iff.1 (show dts.length = 1 from hl.symm)
    simp [ha]
  · rename_i hne
    split at h
    · rename_i hl
      obtain ⟨h1, rfl⟩ := Prod.mk.injEq .. ▸ h
      cases h1
      exact ⟨rfl, regs, hl, fun _ h => h, fun _ => rfl, fun r hr => absurd hr (hne r), rfl⟩
    · cases congrArg Prod.fst h

theorem mkSet_err {dts : List DimTag} {regs : List Nat} {s s' : St} {e : Err} (h : mkSet dts regs s = (.error e, s')) :
    s' = s ∧ e = .assertion ∧ regs.length ≠ 1 ∧ regs.length ≠ dts.length := by
  unfold mkSet at h
  split at h
  · cases congrArg Prod.fst h
  · rename_i hne
    split at h
    · cases congrArg Prod.fst h
    · rename_i hl
      cases h
      exact ⟨rfl, rfl, fun h1 => by
        obtain ⟨a, ha⟩ := List.length_eq_one_iff.1 h1
        exact hne a ha, hl⟩

theorem safe_mkSet {dts : List DimTag} {regs : List Nat} {s : St} (hI : Inv s) (hk : ∀ r ∈ regs, Known s r) :
    Safe (mkSet dts regs) (fun _ _ => True) s := by
  rcases hm : mkSet dts regs s with ⟨e | o, s'⟩
  · unfold Safe; rw [hm, (mkSet_err hm).1]
    exact ⟨hI, le_refl _, fun _ _ => trivial⟩
  · unfold Safe; rw [hm]
    obtain ⟨_, rs, h2, h3, _, _, rfl⟩ := mkSet_ok hm
    refine ⟨⟨hI.max, ?_, ?_, ?_, hI.names, hI.keyNd, hI.valNd⟩, ⟨le_refl _, fun _ _ _ h => h, List.prefix_refl _,
      Nat.le_succ _, fun x hx h => ?_, List.prefix_refl _⟩, fun _ _ => trivial⟩
    rotate_right
    · dsimp only
      rw [Function.update_of_ne (Nat.ne_of_lt hx)]
      exact h
    · intro o b ho
      dsimp only at ho
      by_cases hon : o = s.nobj
      · subst hon; rw [Function.update_self] at ho; cases ho; exact h2
      · rw [Function.update_of_ne hon] at ho; exact hI.len o b ho
    · intro o b ho r hr
      dsimp only at ho
      by_cases hon : o = s.nobj
      · subst hon; rw [Function.update_self] at ho; cases ho; exact hk r (h3 r hr)
      · rw [Function.update_of_ne hon] at ho; exact hI.known o b ho r hr
    · intro o ho
      have : o ≠ s.nobj := fun h => absurd ho (by show ¬ s.nobj + 1 ≤ o; omega)
      dsimp only
      rw [Function.update_of_ne this]
      exact hI.heap o (by have : s.nobj + 1 ≤ o := ho; omega)

theorem safe_load {o : Nat} {s : St} (hI : Inv s) :
    Safe (load o) (fun b s' => s'.obj o = some b ∧ b.regs.length = b.dts.length ∧ ∀ r ∈ b.regs, Known s' r) s := by
  unfold Safe load
  split
  · exact ⟨hI, le_refl _, fun a h => by cases h⟩
  · rename_i b hb
    exact ⟨hI, le_refl _, fun a h => by cases h; exact ⟨hb, hI.len o _ hb, hI.known o _ hb⟩⟩

theorem safe_store {o : Nat} {b c : Obj} {s : St} (hI : Inv s) (ho : s.obj o = some c) (hl : b.regs.length = b.dts.length)
    (hk : ∀ r ∈ b.regs, Known s r) : Safe (store o b) (fun _ _ => True) s := by
  unfold Safe store
  refine ⟨⟨hI.max, ?_, ?_, ?_, hI.names, hI.keyNd, hI.valNd⟩, ⟨le_refl _, fun _ _ _ h => h, List.prefix_refl _,
      le_refl _, fun x hx h => ?_, List.prefix_refl _⟩, fun _ _ => trivial⟩
  rotate_right
  · dsimp only
    rw [Function.update_of_ne (fun hh => by rw [hh, ho] at h; cases h)]
    exact h
  · intro x b' hx
    dsimp only at hx
    by_cases hon : x = o
    · subst hon; rw [Function.update_self] at hx; cases hx; exact hl
    · rw [Function.update_of_ne hon] at hx; exact hI.len x b' hx
  · intro x b' hx r hr
    dsimp only at hx
    by_cases hon : x = o
    · subst hon; rw [Function.update_self] at hx; cases hx; exact hk r hr
    · rw [Function.update_of_ne hon] at hx; exact hI.known x b' hx r hr
  · intro x hx
    have : x ≠ o := fun h => by rw [← h, hI.heap x hx] at ho; cases ho
    dsimp only
    rw [Function.update_of_ne this]
    exact hI.heap x hx

theorem safe_invalidate {o : Nat} {s : St} (hI : Inv s) : Safe (invalidate o) (fun _ _ => True) s := by
  unfold Safe invalidate
  have key : ∀ x b, (Function.update s.obj o none) x = some b → s.obj x = some b := by
    intro x b hx
    by_cases hon : x = o
    · subst hon; rw [Function.update_self] at hx; cases hx
    · rwa [Function.update_of_ne hon] at hx
  refine ⟨⟨hI.max, fun x b hx => hI.len x b (key x b hx), fun x b hx => hI.known x b (key x b hx), ?_, hI.names, hI.keyNd,
    hI.valNd⟩, ⟨le_refl _, fun _ _ _ h => h, List.prefix_refl _, le_refl _, fun x hx h => ?_, List.prefix_refl _⟩,
    fun _ _ => trivial⟩
  rotate_right
  · dsimp only
    by_cases hon : x = o
    · subst hon; exact Function.update_self ..
    · exact (Function.update_of_ne hon ..).trans h
  intro x hx
  by_cases hon : x = o
  · subst hon; exact Function.update_self ..
  · exact (Function.update_of_ne hon ..).trans (hI.heap x hx)

theorem safe_defaultRegion {d : Nat} {s : St} (hI : Inv s) : Safe (defaultRegion d) (fun r s' => Known s' r) s := by
  unfold defaultRegion
  split
  · refine Safe.pure hI ⟨Nat.le_add_right _ _, ?_⟩
    have := hI.max; omega
  · exact Safe.fail hI

theorem safe_object {d t : Nat} {s : St} (hI : Inv s) : Safe (object d t) (fun _ _ => True) s :=
  (safe_defaultRegion hI).bind fun r _ h1 _ q => safe_mkSet h1 (by simpa using q)

theorem safe_dimtagreg {b : Obj} {s : St} (hI : Inv s) :
    Safe (dimtagreg b) (fun ps _ => b.regs.length = b.dts.length ∧ ps = b.dts.zip b.regs) s :=
  (Safe.check hI).bind fun _ _ h1 _ q => Safe.pure h1 ⟨by simpa using q, rfl⟩

theorem safe_group {objs : List Nat} {s : St} (hI : Inv s) : Safe (group objs) (fun _ _ => True) s := by
  unfold group
  split
  · exact Safe.pure hI trivial
  · refine Safe.bind (Q := fun (bs : List Obj) s' => ∀ b ∈ bs, ∀ r ∈ b.regs, Known s' r) ?_ fun bs s1 h1 _ q => ?_
    · refine Safe.mono (Safe.each (Q := fun b s' => ∀ r ∈ b.regs, Known s' r) ?_ hI ?_) fun _ _ h => h.2
      · exact fun b s s' hm h r hr => (h r hr).mono hm
      · exact fun a _ s' hs _ => (safe_load hs).mono fun _ _ h => h.2.2
    · refine safe_mkSet h1 fun r hr => ?_
      obtain ⟨b, hb, hr⟩ := List.mem_flatMap.1 hr
      exact q b hb r hr

theorem safe_sets {ps : List (Nat × List DimTag)} {s : St} (hI : Inv s) (hk : ∀ p ∈ ps, Known s p.1) :
    Safe (each (fun p : Nat × List DimTag => mkSet p.2 [p.1]) ps) (fun _ _ => True) s := by
  refine (Safe.each (Q := fun _ _ => True) (fun _ _ _ _ _ => trivial) hI fun p hp s' hs hm => ?_).mono fun _ _ _ => trivial
  exact safe_mkSet hs (by simpa using (hk p hp).mono hm)

theorem safe_pieces {regs : List Nat} {subs : List (List DimTag)} {s : St} (hI : Inv s) (hk : ∀ r ∈ regs, Known s r) :
    Safe (pieces regs subs) (fun _ _ => True) s :=
  (safe_sets hI fun _ hp => hk _ (List.of_mem_zip hp).1).bind fun _ _ h1 _ _ => safe_group h1

theorem safe_fragmentLoop : ∀ {l : List (Nat × Nat)} {tm : List (List DimTag)} {s : St}, Inv s →
    Safe (fragmentLoop l tm) (fun _ _ => True) s := by
  intro l
  induction l with
  | nil => intro tm s hI; exact Safe.pure hI trivial
  | cons p l ih =>
    intro tm s hI
    refine (safe_load hI).bind fun b s1 h1 _ q1 => (safe_pieces h1 q1.2.2).bind fun _ s2 h2 _ _ => ?_
    exact (safe_invalidate h2).bind fun _ s3 h3 _ _ => (ih h3).bind fun _ _ h4 _ _ => Safe.pure h4 trivial

theorem safe_loads {l : List Nat} {s : St} (hI : Inv s) : Safe (each load l) (fun _ _ => True) s :=
  (Safe.each (Q := fun _ _ => True) (fun _ _ _ _ _ => trivial) hI
    fun _ _ _ hs _ => (safe_load hs).mono fun _ _ _ => trivial).mono fun _ _ _ => trivial

theorem safe_fragment {objs : List Nat} {res : Option (List (List DimTag))} {s : St} (hI : Inv s) :
    Safe (fragment objs res) (fun _ _ => True) s :=
  (safe_loads hI).bind fun _ _ h1 _ _ => (Safe.lib h1).bind fun _ _ h2 _ _ => (Safe.check h2).bind fun _ _ h3 _ _ =>
    (Safe.check h3).bind fun _ _ h4 _ _ => safe_fragmentLoop h4

/-- A region given as an argument exists. -/
def RegArg.Ok (s : St) : RegArg → Prop
  | .name _ => True
  | .reg r => Known s r

theorem RegArg.Ok.mono {s s' : St} {a : RegArg} (h : a.Ok s) (hm : s ≤ s') : a.Ok s' := by
  cases a with
  | name n => trivial
  | reg r => exact Known.mono h hm

theorem Inv.store {s : St} {o : Nat} {b c : Obj} (hI : Inv s) (ho : s.obj o = some c)
    (hl : b.regs.length = b.dts.length) (hk : ∀ r ∈ b.regs, Known s r) : Safe (store o b) (fun _ _ => True) s :=
  safe_store hI ho hl hk

/-- The object sets stay as they are. -/
def Quiet (m : M α) : Prop := ∀ s, (m s).2.obj = s.obj

theorem Quiet.bind {m : M α} {f : α → M β} (h : Quiet m) (hf : ∀ a, Quiet (f a)) : Quiet (m >>= f) := by
  intro s
  rw [bind_apply]
  have := h s
  rcases hm : m s with ⟨a | a, s'⟩ <;> rw [hm] at this
  · exact this
  · exact (hf a s').trans this

theorem Quiet.each {f : α → M β} (h : ∀ a, Quiet (f a)) : ∀ l, Quiet (each f l)
  | [] => fun _ => rfl
  | a :: l => (h a).bind fun _ => (Quiet.each h l).bind fun _ _ => rfl

theorem quiet_complete (r : Nat) (d : Int) : Quiet (complete r d) := by
  intro s; unfold complete; split
  · rfl
  · split <;> rfl

theorem quiet_getRegionName (n : Name) : Quiet (getRegionName n) := by
  intro s
  unfold getRegionName
  rw [bind_apply]
  simp only [regionGet, keepName]
  split <;> rfl

theorem Safe.obj {m : M α} {Q : α → St → Prop} {s : St} (h : Safe m Q s) (hq : Quiet m) :
    Safe m (fun a s' => Q a s' ∧ s'.obj = s.obj) s :=
  ⟨h.1, h.2.1, fun a ha => ⟨h.2.2 a ha, hq s⟩⟩

theorem safe_setRegion {o : Nat} {a : RegArg} {s : St} (hI : Inv s) (ha : a.Ok s) :
    Safe (setRegion o a) (fun _ _ => True) s := by
  unfold setRegion
  refine (safe_load hI).bind fun b s1 h1 m1 q1 => ?_
  have hr : Safe a.get (fun r s' => Known s' r ∧ s'.obj = s1.obj) s1 := by
    cases a with
    | name n => exact (safe_getRegionName h1).obj (quiet_getRegionName n)
    | reg r => exact Safe.pure h1 ⟨Known.mono ha m1, rfl⟩
  refine hr.bind fun r s2 h2 m2 q2 => ?_
  refine ((Safe.each known_mono h2 fun dt _ s' hs hm => safe_complete hs (q2.1.mono hm)).obj
    (Quiet.each (fun _ => quiet_complete _ _) _)).bind fun regs s3 h3 m3 q3 => ?_
  exact safe_store h3 (c := b) (by rw [q3.2, q2.2]; exact q1.1) q3.1.1 q3.1.2

theorem safe_modifyRegions {o : Nat} {f : Name → Name} {s : St} (hI : Inv s) :
    Safe (modifyRegions o f) (fun _ _ => True) s := by
  unfold modifyRegions
  refine (safe_load hI).bind fun b s1 h1 m1 q1 => ?_
  refine ((Safe.each known_mono h1 fun r _ s' hs hm => ?_).obj (Quiet.each (fun _ => ?_) _)).bind fun regs s2 h2 m2 q2 => ?_
  · exact Safe.bind (Q := fun _ _ => True) ⟨hs, le_refl _, fun _ _ => trivial⟩ fun x s'' hs' _ _ => safe_getRegionName hs'
  · exact Quiet.bind (fun _ => rfl) fun _ => quiet_getRegionName _
  · exact safe_store h2 (c := b) (by rw [q2.2]; exact q1.1) (q2.1.1.trans q1.2.1) q2.1.2

theorem safe_copy {o : Nat} {res : Option (List DimTag)} {s : St} (hI : Inv s) : Safe (copy o res) (fun _ _ => True) s :=
  (safe_load hI).bind fun _ _ h1 _ q1 => (Safe.lib h1).bind fun _ _ h2 m2 _ =>
    safe_mkSet h2 fun r hr => (q1.2.2 r hr).mono m2

theorem safe_getBoundary {o : Nat} {res : Option (List DimTag)} {s : St} (hI : Inv s) :
    Safe (getBoundary o res) (fun _ _ => True) s :=
  (safe_load hI).bind fun _ _ h1 _ _ => (Safe.lib h1).bind fun _ _ h2 _ _ =>
    (Safe.each known_mono h2 fun _ _ _ hs _ => safe_defaultRegion hs).bind fun _ _ h3 _ q3 => safe_mkSet h3 q3.2

theorem addTo_mem {κ γ : Type} [DecidableEq κ] {k : κ} {x : γ} : ∀ {l : List (κ × List γ)} {p}, p ∈ addTo k x l →
    p.1 = k ∨ ∃ q ∈ l, q.1 = p.1 := by
  intro l
  induction l with
  | nil => intro p hp; rw [addTo, List.mem_singleton] at hp; exact Or.inl (by rw [hp])
  | cons q l ih =>
    intro p hp
    rw [addTo] at hp
    split at hp
    · rename_i hk
      rcases List.mem_cons.1 hp with rfl | hp
      · exact Or.inl hk
      · exact Or.inr ⟨p, List.mem_cons_of_mem _ hp, rfl⟩
    · rcases List.mem_cons.1 hp with rfl | hp
      · exact Or.inr ⟨_, List.mem_cons_self, rfl⟩
      · rcases ih hp with h | ⟨q', h1, h2⟩
        · exact Or.inl h
        · exact Or.inr ⟨q', List.mem_cons_of_mem _ h1, h2⟩

theorem safe_splitLoop : ∀ {ps : List (DimTag × Nat)} {acc : List (Nat × List DimTag)} {s : St}, Inv s →
    (∀ p ∈ ps, Known s p.2) → (∀ p ∈ acc, Known s p.1) →
    Safe (splitLoop ps acc) (fun a s' => ∀ p ∈ a, Known s' p.1) s := by
  intro ps
  induction ps with
  | nil => intro acc s hI _ h; exact Safe.pure hI h
  | cons p ps ih =>
    intro acc s hI h1 h2
    refine (safe_complete hI (h1 p List.mem_cons_self)).bind fun _ s' hs m _ => ih hs
      (fun x hx => (h1 x (List.mem_cons_of_mem _ hx)).mono m) fun x hx => ?_
    rcases addTo_mem hx with h | ⟨q, h3, h4⟩
    · rw [h]; exact (h1 p List.mem_cons_self).mono m
    · rw [← h4]; exact (h2 q h3).mono m

theorem zip_known {b : Obj} {s : St} (h : ∀ r ∈ b.regs, Known s r) : ∀ p ∈ b.dts.zip b.regs, Known s p.2 :=
  fun _ hp => h _ (List.of_mem_zip hp).2

theorem safe_splitByRegion {o : Nat} {s : St} (hI : Inv s) : Safe (splitByRegion o) (fun _ _ => True) s := by
  refine (safe_load hI).bind fun b s1 h1 _ q1 => (safe_dimtagreg h1).bind fun ps s2 h2 m2 q2 => ?_
  refine (safe_splitLoop h2 (fun p hp => ?_) (by simp)).bind fun acc s3 h3 m3 q3 => safe_sets h3 q3
  rw [q2.2] at hp
  exact (zip_known q1.2.2 p hp).mono m2

theorem safe_dimLoop : ∀ {ps : List (DimTag × Nat)} {acc : Nat → List (DimTag × Nat)} {s : St}, Inv s →
    (∀ p ∈ ps, Known s p.2) → (∀ d, ∀ p ∈ acc d, Known s p.2) →
    Safe (dimLoop ps acc) (fun a s' => ∀ d, ∀ p ∈ a d, Known s' p.2) s := by
  intro ps
  induction ps with
  | nil => intro acc s hI _ h; exact Safe.pure hI h
  | cons p ps ih =>
    intro acc s hI h1 h2
    refine (safe_complete hI (h1 p List.mem_cons_self)).bind fun _ s1 hs m _ => (Safe.check hs).bind fun _ s' hs m' _ => ih hs
      (fun x hx => (h1 x (List.mem_cons_of_mem _ hx)).mono (le_trans m m')) fun d x hx => ?_
    by_cases hd : d = p.1.1
    · subst hd
      rw [Function.update_self] at hx
      rcases List.mem_append.1 hx with hx | hx
      · exact (h2 _ x hx).mono (le_trans m m')
      · rw [List.mem_singleton.1 hx]; exact (h1 p List.mem_cons_self).mono (le_trans m m')
    · rw [Function.update_of_ne hd] at hx; exact (h2 d x hx).mono (le_trans m m')

theorem safe_splitByDimension {o : Nat} {s : St} (hI : Inv s) : Safe (splitByDimension o) (fun _ _ => True) s := by
  refine (safe_load hI).bind fun b s1 h1 _ q1 => (safe_dimtagreg h1).bind fun ps s2 h2 m2 q2 => ?_
  refine (safe_dimLoop h2 (fun p hp => ?_) (by simp)).bind fun acc s3 h3 m3 q3 => ?_
  · rw [q2.2] at hp
    exact (zip_known q1.2.2 p hp).mono m2
  · refine (Safe.each (Q := fun _ _ => True) (fun _ _ _ _ _ => trivial) h3 fun d _ s' hs hm => ?_).mono fun _ _ _ => trivial
    refine safe_mkSet hs fun r hr => ?_
    obtain ⟨p, hp, rfl⟩ := List.mem_map.1 hr
    exact (q3 d p hp).mono hm

theorem safe_boundaryLoop {f : Name → Name} : ∀ {l : List (Nat × Option (List DimTag))} {s : St}, Inv s →
    Safe (boundaryLoop f l) (fun _ _ => True) s := by
  intro l
  induction l with
  | nil => intro s hI; exact Safe.pure hI trivial
  | cons p l ih =>
    intro s hI
    refine (safe_load hI).bind fun b s1 h1 _ _ => (Safe.lib h1).bind fun r s2 h2 _ _ => ?_
    refine Safe.bind (Q := fun _ _ => True) ⟨h2, le_refl _, fun _ _ => trivial⟩ fun x s3 h3 _ _ => ?_
    refine (Safe.lib h3).bind fun d s4 h4 _ _ => (safe_regionGet h4).bind fun br s5 h5 _ q5 => ?_
    refine (safe_getBoundary h5).bind fun bd s6 h6 m6 _ => ?_
    exact (safe_setRegion h6 (show RegArg.Ok s6 (.reg br) from q5.1.mono m6)).bind fun _ s7 h7 _ _ =>
      (ih h7).bind fun _ s8 h8 _ _ => Safe.pure h8 trivial

theorem safe_getBoundaryPerRegion {o : Nat} {f : Name → Name} {res : Nat → Option (List DimTag)} {s : St} (hI : Inv s) :
    Safe (getBoundaryPerRegion o f res) (fun _ _ => True) s :=
  (safe_splitByRegion hI).bind fun _ _ h1 _ _ => safe_boundaryLoop h1

theorem selectLoop_eq {l : List (List DimTag × DimTag × Nat)} : ∀ {s s' : St} {r}, selectLoop l s = (r, s') → s' = s ∧
    ∀ x, r = .ok x → x = (l.filter fun p => p.1.length = 1).map Prod.snd := by
  induction l with
  | nil => intro s s' r h; cases h; exact ⟨rfl, fun x hx => by cases hx; rfl⟩
  | cons p l ih =>
    intro s s' r h
    rw [selectLoop, bind_apply] at h
    rcases hc : check (decide (p.1.length ≤ 1)) Err.bool s with ⟨e | u, s1⟩
    · rw [hc] at h
      unfold check at hc
      split at hc
      · cases hc
      · cases hc; cases h; exact ⟨rfl, fun x hx => by cases hx⟩
    · rw [hc] at h
      obtain ⟨_, rfl⟩ := check_ok.1 hc
      dsimp only at h
      rw [bind_apply] at h
      rcases hl : selectLoop l s1 with ⟨e | r', s2⟩
      · rw [hl] at h
        cases h
        exact ⟨(ih hl).1, fun x hx => by cases hx⟩
      · rw [hl] at h
        obtain ⟨rfl, h2⟩ := ih hl
        cases h
        refine ⟨rfl, fun x hx => ?_⟩
        cases hx
        rw [h2 r' rfl]
        by_cases h1 : p.1.length = 1 <;> simp [h1]

theorem safe_selectLoop {l : List (List DimTag × DimTag × Nat)} {s : St} (hI : Inv s) :
    Safe (selectLoop l) (fun r _ => r = (l.filter fun p => p.1.length = 1).map Prod.snd) s := by
  rcases h : selectLoop l s with ⟨r, s'⟩
  obtain ⟨h1, h2⟩ := selectLoop_eq h
  unfold Safe
  rw [h, h1]
  exact ⟨hI, le_refl _, h2⟩

theorem safe_selectByIntersect {o : Nat} {tools : List Nat} {c1 c2 : Option (List DimTag)}
    {res : Option (List (List DimTag))} {s : St} (hI : Inv s) :
    Safe (selectByIntersect o tools c1 c2 res) (fun _ _ => True) s := by
  refine (safe_copy hI).bind fun _ _ h1 _ _ => (safe_group h1).bind fun _ _ h2 _ _ => (safe_copy h2).bind fun _ _ h3 _ _ => ?_
  refine (Safe.lib h3).bind fun tm _ h4 _ _ => (safe_invalidate h4).bind fun _ _ h5 _ _ => ?_
  refine (safe_invalidate h5).bind fun _ _ h6 _ _ => (safe_load h6).bind fun b s7 h7 m7 q7 => ?_
  refine (safe_dimtagreg h7).bind fun ps s8 h8 m8 q8 => (safe_selectLoop h8).bind fun isec s9 h9 m9 q9 => ?_
  refine safe_mkSet h9 fun r hr => ?_
  obtain ⟨p, hp, rfl⟩ := List.mem_map.1 hr
  rw [q9] at hp
  obtain ⟨x, hx, rfl⟩ := List.mem_map.1 hp
  have hx2 := (List.of_mem_zip (List.mem_filter.1 hx).1).2
  rw [q8.2] at hx2
  exact (zip_known q7.2.2 _ hx2).mono (le_trans m8 m9)

theorem lastOf_mem {ps : List (DimTag × Nat)} {k : DimTag} {r : Nat} (h : lastOf ps k = some r) : (k, r) ∈ ps :=
  List.mem_reverse.1 (find_mem h)

theorem items_mem {ps : List (DimTag × Nat)} {ks : List DimTag} {p : DimTag × Nat} :
    p ∈ items ps ks ↔ p.1 ∈ ks ∧ lastOf ps p.1 = some p.2 := by
  unfold items
  rw [List.mem_filterMap]
  constructor
  · rintro ⟨k, hk, h⟩
    obtain ⟨r, hr, rfl⟩ := Option.map_eq_some_iff.1 h
    exact ⟨hk, hr⟩
  · rintro ⟨hk, h⟩
    exact ⟨p.1, hk, by rw [h]; rfl⟩

theorem safe_splitByCut {o : Nat} {tools : List Nat} {res : Option (List (List DimTag))} {ord : List DimTag → List DimTag}
    {s : St} (hI : Inv s) : Safe (splitByCut o tools res ord) (fun _ _ => True) s := by
  refine (safe_load hI).bind fun _ _ h0 _ _ => (safe_group h0).bind fun _ _ h1 _ _ => (safe_fragment h1).bind
    fun news _ h2 _ _ => ?_
  split
  · refine (safe_load h2).bind fun b1 s3 h3 m3 q3 => (safe_dimtagreg h3).bind fun p1 s4 h4 m4 q4 => ?_
    refine (safe_load h4).bind fun b2 s5 h5 m5 q5 => (safe_dimtagreg h5).bind fun p2 s6 h6 m6 q6 => ?_
    refine (Safe.each (Q := fun _ _ => True) (fun _ _ _ _ _ => trivial) h6 fun ps hps s' hs hm => ?_).mono fun _ _ _ => trivial
    have k1 : ∀ ks, ∀ p ∈ items p1 ks, Known s' p.2 := fun ks p hp => by
      have := lastOf_mem (items_mem.1 hp).2
      rw [q4.2] at this
      exact (zip_known q3.2.2 _ this).mono (le_trans m4 (le_trans m5 (le_trans m6 hm)))
    have k2 : ∀ ks, ∀ p ∈ items p2 ks, Known s' p.2 := fun ks p hp => by
      have := lastOf_mem (items_mem.1 hp).2
      rw [q6.2] at this
      exact (zip_known q5.2.2 _ this).mono (le_trans m6 hm)
    refine safe_mkSet hs fun r hr => ?_
    obtain ⟨p, hp, rfl⟩ := List.mem_map.1 hr
    simp only [List.mem_cons, List.not_mem_nil, or_false] at hps
    rcases hps with rfl | rfl | rfl | rfl
    · exact k1 _ p hp
    · exact k2 _ p hp
    · exact k1 _ p hp
    · exact k2 _ p hp
  · exact Safe.fail h2

theorem safe_setRegionFromDimtag {o : Nat} {s : St} (hI : Inv s) : Safe (setRegionFromDimtag o) (fun _ _ => True) s := by
  unfold setRegionFromDimtag
  refine (safe_load hI).bind fun b s1 h1 m1 q1 => ?_
  refine ((Safe.each known_mono h1 fun r _ s' hs hm => safe_getRegionName hs).obj
    (Quiet.each (fun _ => quiet_getRegionName _) _)).bind fun regs s2 h2 m2 q2 => ?_
  exact safe_store h2 (c := b) (by rw [q2.2]; exact q1.1) q2.1.1 q2.1.2

theorem safe_applyOperation {o : Nat} {tools : List Nat} {c : Option (List DimTag)} {res : Option (List (List DimTag))} {s : St}
    (hI : Inv s) : Safe (applyOperation o tools c res) (fun _ _ => True) s := by
  refine (safe_load hI).bind fun _ _ h1 _ _ => (safe_group h1).bind fun _ _ h2 _ _ => (safe_copy h2).bind fun _ _ h3 _ _ => ?_
  refine (Safe.lib h3).bind fun tm _ h4 _ _ => (safe_load h4).bind fun b s5 h5 m5 q5 => (Safe.check h5).bind
    fun _ s6 h6 m6 _ => ?_
  refine (safe_pieces h6 fun r hr => (q5.2.2 r hr).mono m6).bind fun _ _ h7 _ _ => (safe_invalidate h7).bind fun _ _ h8 _ _ => ?_
  exact (safe_invalidate h8).bind fun _ _ h9 _ _ => Safe.pure h9 trivial

theorem safe_removeSmallMass {o : Nat} {big : DimTag → Bool} {s : St} (hI : Inv s) :
    Safe (removeSmallMass o big) (fun _ _ => True) s := by
  unfold removeSmallMass
  refine (safe_load hI).bind fun b s1 h1 m1 q1 => ?_
  refine safe_store h1 q1.1 ?_ fun r hr => ?_
  · simp only [List.length_map]
    have : ∀ (l : List DimTag) (m : List Nat), m.length = l.length →
        ((m.zip (l.map big)).filter Prod.snd).length = ((l.zip (l.map big)).filter Prod.snd).length := by
      intro l
      induction l with
      | nil => intro m hm; rw [List.length_eq_zero_iff.1 hm]; rfl
      | cons a l ih =>
        intro m hm
        match m, hm with
        | c :: m, hm =>
          have := ih m (by simpa using hm)
          simp only [List.map_cons, List.zip_cons_cons, List.filter_cons]
          split <;> simp [this]
    exact this b.dts b.regs q1.2.1
  · obtain ⟨p, hp, rfl⟩ := List.mem_map.1 hr
    exact q1.2.2 _ (List.of_mem_zip (List.mem_filter.1 hp).1).1

theorem safe_assignLoop : ∀ {ps : List (DimTag × Nat)} {a : List (Nat × List Nat)} {n : List (Name × List Nat)} {s : St}, Inv s →
    (∀ p ∈ ps, Known s p.2) → Safe (assignLoop ps a n) (fun _ _ => True) s := by
  intro ps
  induction ps with
  | nil => intro a n s hI _; exact Safe.pure hI trivial
  | cons p ps ih =>
    intro a n s hI h
    refine (safe_complete hI (h p List.mem_cons_self)).bind fun _ s1 h1 m1 _ => ?_
    refine Safe.bind (Q := fun _ _ => True) ⟨h1, le_refl _, fun _ _ => trivial⟩ fun x s2 h2 m2 _ => ?_
    exact ih h2 fun x hx => (h x (List.mem_cons_of_mem _ hx)).mono (le_trans m1 m2)

theorem safe_renameLoop : ∀ {l : List Nat} {i : Nat} {s : St}, Inv s → Safe (renameLoop i l) (fun _ _ => True) s := by
  intro l
  induction l with
  | nil => intro i s hI; exact Safe.pure hI trivial
  | cons r l ih =>
    intro i s hI
    refine Safe.bind (Q := fun _ _ => True) ⟨hI.reg _, ⟨le_refl _, fun x c hx hc => ?_, List.prefix_refl _, le_refl _,
      fun _ _ h => h, List.prefix_refl _⟩, fun _ _ => trivial⟩ fun _ s1 h1 _ _ => ih h1
    simp only [setUniqueName]
    by_cases hxr : x = r
    · subst hxr; rw [Function.update_self]; exact hc
    · rw [Function.update_of_ne hxr]; exact hc

theorem safe_uniqueLoop : ∀ {l : List (List Nat)} {s : St}, Inv s → Safe (uniqueLoop l) (fun _ _ => True) s := by
  intro l
  induction l with
  | nil => intro s hI; exact Safe.pure hI trivial
  | cons ids l ih =>
    intro s hI
    rw [uniqueLoop]
    refine Safe.bind (Q := fun _ _ => True) ?_ fun _ _ h _ _ => ih h
    unfold renameIds
    split
    · exact safe_renameLoop hI
    · exact Safe.pure hI trivial

theorem safe_assignGroups {o : Nat} {s : St} (hI : Inv s) : Safe (assignGroups o) (fun _ _ => True) s := by
  refine (safe_load hI).bind fun b s1 h1 _ q1 => (safe_dimtagreg h1).bind fun ps s2 h2 m2 q2 => ?_
  refine (safe_assignLoop h2 fun p hp => ?_).bind fun an s3 h3 _ _ => ?_
  · rw [q2.2] at hp
    exact (zip_known q1.2.2 p hp).mono m2
  · obtain ⟨a, n⟩ := an
    refine (safe_uniqueLoop h3).bind fun _ s4 h4 _ _ => ?_
    refine (Safe.each (Q := fun _ _ => True) (fun _ _ _ _ _ => trivial) h4 fun p _ s' hs _ => ?_).bind fun _ _ h5 _ _ =>
      Safe.pure h5 trivial
    exact ⟨hs.groups _, ⟨le_refl _, fun _ _ _ h => h, List.prefix_refl _, le_refl _, fun _ _ h => h, List.prefix_append _ _⟩,
      fun _ _ => trivial⟩

theorem safe_makeMesh {objs : List Nat} {s : St} (hI : Inv s) : Safe (makeMesh objs) (fun _ _ => True) s :=
  (safe_group hI).bind fun _ _ h1 _ _ => safe_assignGroups h1

theorem safe_fractureLoop {base : Nat} : ∀ {l : List (RegArg × Option (List DimTag))} {s : St}, Inv s → (∀ p ∈ l, p.1.Ok s) →
    Safe (fractureLoop base l) (fun _ _ => True) s := by
  intro l
  induction l with
  | nil => intro s hI _; exact Safe.pure hI trivial
  | cons p l ih =>
    intro s hI h
    refine (safe_copy hI).bind fun _ _ h1 m1 _ => (safe_setRegion h1 ((h p List.mem_cons_self).mono m1)).bind
      fun _ _ h2 m2 _ => ?_
    exact (ih h2 fun x hx => (h x (List.mem_cons_of_mem _ hx)).mono (le_trans m1 m2)).bind fun _ _ h3 _ _ =>
      Safe.pure h3 trivial

theorem safe_makeFractures {base : Nat} {frs : List (RegArg × Option (List DimTag))} {res : Option (List (List DimTag))}
    {s : St} (hI : Inv s) (h : ∀ p ∈ frs, p.1.Ok s) : Safe (makeFractures base frs res) (fun _ _ => True) s :=
  (safe_fractureLoop hI h).bind fun _ _ h1 _ _ => safe_fragment h1

theorem start_inv : Inv start :=
  ⟨le_refl _, fun _ _ h => absurd h (by simp [start]), fun _ _ h => absurd h (by simp [start]), fun _ _ => rfl,
    fun _ h => absurd h (by simp [start]), List.nodup_nil, List.nodup_nil⟩

end Verif.Gmsh
