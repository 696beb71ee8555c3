import Verif.Gmsh.Heap

/-! Splitting of object sets, and physical groups. -/
namespace Verif.Gmsh
open M

variable {α β κ γ : Type}

/-! ### Completion of regions -/

/-- All `complete` calls of a loop. -/
def completes (ps : List (DimTag × Nat)) : M (List Nat) := each (fun p : DimTag × Nat => complete p.2 p.1.1) ps

/-- Every region can have the dimension of its entities. -/
def Fits (s : St) (ps : List (DimTag × Nat)) : Prop :=
  (∀ p ∈ ps, (s.reg p.2).dim = none ∨ (s.reg p.2).dim = some (p.1.1 : Int)) ∧ ∀ p ∈ ps, ∀ q ∈ ps, p.2 = q.2 → p.1.1 = q.1.1

/-- Only dimensions of the regions are changed: they are set to the dimensions of the entities. -/
structure Completed (s s' : St) (ps : List (DimTag × Nat)) : Prop where
  maxId : s'.maxId = s.maxId
  names : s'.names = s.names
  nobj : s'.nobj = s.nobj
  obj : s'.obj = s.obj
  groups : s'.groups = s.groups
  name : ∀ r, (s'.reg r).name = (s.reg r).name
  new : ∀ p ∈ ps, (s'.reg p.2).dim = some (p.1.1 : Int)
  old : ∀ r, r ∉ ps.map Prod.snd → s'.reg r = s.reg r
  dim : ∀ r d, (s.reg r).dim = some d → (s'.reg r).dim = some d

theorem complete_ok {r r' : Nat} {d : Nat} {s s' : St} (h : complete r d s = (.ok r', s')) :
    Completed s s' [((d, 0), r)] ∧ ((s.reg r).dim = none ∨ (s.reg r).dim = some (d : Int)) := by
  unfold complete at h
  split at h
  · rename_i hn
    cases h
    refine ⟨⟨rfl, rfl, rfl, rfl, rfl, fun x => ?_, fun p hp => ?_, fun x hx => ?_, fun x c hc => ?_⟩, Or.inl hn⟩
    · by_cases hx : x = r
      · subst hx; simp
      · simp [Function.update_of_ne hx]
    · rw [List.mem_singleton.1 hp]; simp
    · have : x ≠ r := by simpa using hx
      exact Function.update_of_ne this ..
    · by_cases hx : x = r
      · subst hx; rw [hn] at hc; cases hc
      · simpa [Function.update_of_ne hx] using hc
  · rename_i d' hd
    split at h
    · rename_i hdd
      cases h
      subst hdd
      refine ⟨⟨rfl, rfl, rfl, rfl, rfl, fun _ => rfl, fun p hp => ?_, fun _ _ => rfl, fun _ _ h => h⟩, Or.inr hd⟩
      rw [List.mem_singleton.1 hp]
      exact hd
    · cases h

theorem complete_of {r : Nat} {d : Nat} {s : St} (h : (s.reg r).dim = none ∨ (s.reg r).dim = some (d : Int)) :
    ∃ s', complete r d s = (.ok r, s') := by
  unfold complete
  rcases h with h | h <;> rw [h]
  · exact ⟨_, rfl⟩
  · exact ⟨s, if_pos rfl⟩

theorem completes_ok : ∀ {ps : List (DimTag × Nat)} {s s' : St} {l : List Nat}, completes ps s = (.ok l, s') →
    Completed s s' ps ∧ Fits s ps := by
  intro ps
  induction ps with
  | nil =>
    intro s s' l h
    cases h
    exact ⟨⟨rfl, rfl, rfl, rfl, rfl, fun _ => rfl, by simp, fun _ _ => rfl, fun _ _ h => h⟩, by simp [Fits]⟩
  | cons p ps ih =>
    intro s s' l h
    rw [completes, each] at h
    obtain ⟨r, s1, h1, h2⟩ := bind_ok.1 h
    obtain ⟨l', s2, h3, h4⟩ := bind_ok.1 h2
    cases h4
    obtain ⟨c1, f1⟩ := complete_ok h1
    obtain ⟨c2, f2⟩ := ih h3
    have hd : (s1.reg p.2).dim = some (p.1.1 : Int) := c1.new ((p.1.1, 0), p.2) (by simp)
    have same : ∀ q ∈ ps, p.2 = q.2 → p.1.1 = q.1.1 := by
      intro q hq he
      have := f2.1 q hq
      rw [← he, hd] at this
      rcases this with h | h
      · cases h
      · have := Option.some.inj h; omega
    refine ⟨⟨c2.maxId.trans c1.maxId, c2.names.trans c1.names, c2.nobj.trans c1.nobj, c2.obj.trans c1.obj,
      c2.groups.trans c1.groups, fun r => (c2.name r).trans (c1.name r), fun q hq => ?_, fun r hr => ?_,
      fun r d hr => c2.dim r d (c1.dim r d hr)⟩, fun q hq => ?_, fun q hq q' hq' he => ?_⟩
    · rcases List.mem_cons.1 hq with rfl | hq
      · exact c2.dim _ _ hd
      · exact c2.new q hq
    · rw [List.map_cons, List.mem_cons, not_or] at hr
      rw [c2.old r hr.2, c1.old r (by simpa using hr.1)]
    · rcases List.mem_cons.1 hq with rfl | hq
      · exact f1
      · rcases f2.1 q hq with h | h
        · left
          by_cases he : q.2 = p.2
          · rw [he, hd] at h; cases h
          · rwa [c1.old q.2 (by simpa using he)] at h
        · by_cases he : p.2 = q.2
          · rw [← he, ← same q hq he]; exact f1
          · right
            rwa [c1.old q.2 (by simpa using Ne.symm he)] at h
    · rcases List.mem_cons.1 hq with h1 | h1 <;> rcases List.mem_cons.1 hq' with h2 | h2
      · rw [h1, h2]
      · rw [h1]; exact same q' h2 (h1 ▸ he)
      · rw [h2]; exact (same q h1 (h2 ▸ he).symm).symm
      · exact f2.2 q h1 q' h2 he

theorem completes_of : ∀ {ps : List (DimTag × Nat)} {s : St}, Fits s ps → ∃ l s', completes ps s = (.ok l, s') := by
  intro ps
  induction ps with
  | nil => exact fun _ => ⟨[], _, rfl⟩
  | cons p ps ih =>
    intro s hf
    obtain ⟨s1, h1⟩ := complete_of (hf.1 p List.mem_cons_self)
    obtain ⟨c1, _⟩ := complete_ok h1
    have hd : (s1.reg p.2).dim = some (p.1.1 : Int) := c1.new ((p.1.1, 0), p.2) (by simp)
    obtain ⟨l, s', h2⟩ := ih (s := s1) ⟨fun q hq => by
      by_cases he : p.2 = q.2
      · right; rw [← he, hd, hf.2 p List.mem_cons_self q (List.mem_cons_of_mem _ hq) he]
      · rw [c1.old q.2 (by simpa using Ne.symm he)]; exact hf.1 q (List.mem_cons_of_mem _ hq),
      fun q hq q' hq' => hf.2 q (List.mem_cons_of_mem _ hq) q' (List.mem_cons_of_mem _ hq')⟩
    exact ⟨_, s', by rw [completes, each, bind_of h1]; exact (bind_of h2).trans rfl⟩

/-! ### Dictionaries of lists -/

/-- The items of a dictionary: each key once, and the values of all items with this key in order. -/
structure Grp [DecidableEq κ] (kf : α → κ) (vf : α → γ) (ps : List α) (acc : List (κ × List γ)) : Prop where
  nd : (acc.map Prod.fst).Nodup
  keys : ∀ k, k ∈ acc.map Prod.fst ↔ ∃ p ∈ ps, kf p = k
  vals : ∀ q ∈ acc, q.2 = (ps.filter fun p => kf p = q.1).map vf

theorem addTo_keys [DecidableEq κ] (k : κ) (x : γ) : ∀ l : List (κ × List γ), (addTo k x l).map Prod.fst =
    if k ∈ l.map Prod.fst then l.map Prod.fst else l.map Prod.fst ++ [k] := by
  intro l
  induction l with
  | nil => simp [addTo]
  | cons q l ih =>
    rw [addTo]
    split
    · rename_i hk; simp [hk]
    · rename_i hk
      rw [List.map_cons, ih]
      have : (k ∈ (q :: l).map Prod.fst) ↔ k ∈ l.map Prod.fst := by simp [Ne.symm hk]
      by_cases hm : k ∈ l.map Prod.fst
      · rw [if_pos hm, if_pos (this.2 hm)]; rfl
      · rw [if_neg hm, if_neg (mt this.1 hm)]; rfl

theorem addTo_vals [DecidableEq κ] (k : κ) (x : γ) : ∀ l : List (κ × List γ), (l.map Prod.fst).Nodup → ∀ q ∈ addTo k x l,
    (q.1 ≠ k ∧ q ∈ l) ∨ (q.1 = k ∧ ∃ v, (k, v) ∈ l ∧ q.2 = v ++ [x]) ∨ (q.1 = k ∧ k ∉ l.map Prod.fst ∧ q.2 = [x]) := by
  intro l
  induction l with
  | nil =>
    intro _ q hq
    rw [addTo, List.mem_singleton] at hq
    subst hq
    exact Or.inr (Or.inr ⟨rfl, by simp, rfl⟩)
  | cons c l ih =>
    intro hn q hq
    rw [List.map_cons, List.nodup_cons] at hn
    rw [addTo] at hq
    split at hq
    · rename_i hk
      rcases List.mem_cons.1 hq with rfl | hq
      · exact Or.inr (Or.inl ⟨hk, c.2, by rw [← hk]; exact List.mem_cons_self, rfl⟩)
      · refine Or.inl ⟨fun h => hn.1 ?_, List.mem_cons_of_mem _ hq⟩
        rw [hk, ← h]
        exact List.mem_map_of_mem hq
    · rename_i hk
      rcases List.mem_cons.1 hq with rfl | hq
      · exact Or.inl ⟨hk, List.mem_cons_self⟩
      · rcases ih hn.2 q hq with h | ⟨h1, v, h2, h3⟩ | ⟨h1, h2, h3⟩
        · exact Or.inl ⟨h.1, List.mem_cons_of_mem _ h.2⟩
        · exact Or.inr (Or.inl ⟨h1, v, List.mem_cons_of_mem _ h2, h3⟩)
        · exact Or.inr (Or.inr ⟨h1, by
            rw [List.map_cons, List.mem_cons, not_or]
            exact ⟨Ne.symm hk, h2⟩, h3⟩)

theorem Grp.add [DecidableEq κ] {kf : α → κ} {vf : α → γ} {ps : List α} {acc : List (κ × List γ)} (h : Grp kf vf ps acc)
    (p : α) : Grp kf vf (ps ++ [p]) (addTo (kf p) (vf p) acc) := by
  refine ⟨?_, fun k => ?_, fun q hq => ?_⟩
  · rw [addTo_keys]
    split
    · exact h.nd
    · rename_i hm
      rw [List.nodup_append]
      exact ⟨h.nd, by simp, fun a ha b hb => by rw [List.mem_singleton.1 hb]; exact fun he => hm (he ▸ ha)⟩
  · rw [addTo_keys]
    have e : (∃ x ∈ ps ++ [p], kf x = k) ↔ (∃ x ∈ ps, kf x = k) ∨ kf p = k := by
      constructor
      · rintro ⟨x, hx, he⟩
        rcases List.mem_append.1 hx with hx | hx
        · exact Or.inl ⟨x, hx, he⟩
        · rw [List.mem_singleton.1 hx] at he; exact Or.inr he
      · rintro (⟨x, hx, he⟩ | he)
        · exact ⟨x, List.mem_append_left _ hx, he⟩
        · exact ⟨p, by simp, he⟩
    rw [e, ← h.keys k]
    split
    · rename_i hm
      constructor
      · exact Or.inl
      · rintro (h | h)
        · exact h
        · exact h ▸ hm
    · rw [List.mem_append, List.mem_singleton, eq_comm (a := k)]
  · rw [List.filter_append, List.map_append]
    rcases addTo_vals _ _ acc h.nd q hq with ⟨h1, h2⟩ | ⟨h1, v, h2, h3⟩ | ⟨h1, h2, h3⟩
    · rw [h.vals q h2]; simp [Ne.symm h1]
    · have := h.vals _ h2
      dsimp only at this
      rw [h3, this, h1]; simp
    · rw [h3, h1]
      have : ps.filter (fun x => decide (kf x = kf p)) = [] := by
        rw [List.filter_eq_nil_iff]
        intro x hx he
        exact h2 ((h.keys _).2 ⟨x, hx, by simpa using he⟩)
      rw [this]; simp

theorem Grp.fold [DecidableEq κ] {kf : α → κ} {vf : α → γ} : ∀ {qs ps : List α} {acc : List (κ × List γ)}, Grp kf vf ps acc →
    Grp kf vf (ps ++ qs) (qs.foldl (fun a p => addTo (kf p) (vf p) a) acc) := by
  intro qs
  induction qs with
  | nil => intro ps acc h; simpa using h
  | cons q qs ih =>
    intro ps acc h
    have := ih (h.add q)
    rwa [List.append_assoc] at this

theorem Grp.all [DecidableEq κ] (kf : α → κ) (vf : α → γ) (ps : List α) :
    Grp kf vf ps (ps.foldl (fun a p => addTo (kf p) (vf p) a) []) :=
  Grp.fold (ps := []) ⟨List.nodup_nil, by simp, by simp⟩

/-! ### `split_by_region` -/

theorem splitLoop_ok : ∀ {ps : List (DimTag × Nat)} {acc a : List (Nat × List DimTag)} {s s' : St},
    splitLoop ps acc s = (.ok a, s') ↔ (∃ l, completes ps s = (.ok l, s')) ∧ a = ps.foldl (fun a p => addTo p.2 p.1 a) acc := by
  intro ps
  induction ps with
  | nil =>
    intro acc a s s'
    rw [splitLoop, pure_apply, completes, each, pure_apply]
    simp [eq_comm, and_comm]
  | cons p ps ih =>
    intro acc a s s'
    rw [splitLoop, bind_ok, completes, each]
    constructor
    · rintro ⟨r, s1, h1, h2⟩
      obtain ⟨⟨l, h3⟩, h4⟩ := ih.1 h2
      exact ⟨⟨r :: l, by rw [bind_of h1]; exact bind_of h3⟩, h4⟩
    · rintro ⟨⟨l, hl⟩, h4⟩
      obtain ⟨r, s1, h1, h2⟩ := bind_ok.1 hl
      obtain ⟨l', s2, h3, h5⟩ := bind_ok.1 h2
      cases h5
      exact ⟨r, s1, h1, ih.2 ⟨⟨l', h3⟩, h4⟩⟩

theorem dimtagreg_of {b : Obj} (h : b.regs.length = b.dts.length) (s : St) : dimtagreg b s = (.ok b.pairs, s) := by
  unfold dimtagreg
  rw [bind_of (check_of (by simpa using h) s)]
  rfl

theorem dimtagreg_ok {b : Obj} {s s' : St} {ps} (h : dimtagreg b s = (.ok ps, s')) :
    b.regs.length = b.dts.length ∧ ps = b.pairs ∧ s' = s := by
  unfold dimtagreg at h
  obtain ⟨u, s1, h1, h2⟩ := bind_ok.1 h
  obtain ⟨hc, rfl⟩ := check_ok.1 h1
  cases h2
  exact ⟨by simpa using hc, rfl, rfl⟩

/-- `split_by_region` returns exactly if every region can have the dimension of its entities. Then there is one new object set
for every region; it has the entities with this region in their order, and this region only. The split object and all others
are not changed. -/
theorem split_by_region_partition {s : St} (h : Reach s) {o : Nat} {b : Obj} (ho : s.obj o = some b) :
    ((∃ ns s', splitByRegion o s = (.ok ns, s')) ↔ Fits s b.pairs) ∧
    ∀ ns s', splitByRegion o s = (.ok ns, s') → ∃ rs : List Nat, rs.Nodup ∧ (∀ r, r ∈ rs ↔ r ∈ b.regs) ∧
      List.Forall₂ (fun n r => s'.obj n = some ⟨(b.pairs.filter fun p => p.2 = r).map Prod.fst,
        (b.pairs.filter fun p => p.2 = r).map Prod.snd⟩) ns rs ∧
      (∀ p ∈ b.pairs, (s'.reg p.2).dim = some (p.1.1 : Int)) ∧ (∀ x < s.nobj, s'.obj x = s.obj x) := by
  have hl := h.inv.len o b ho
  have hunf : splitByRegion o s = (splitLoop b.pairs [] >>= fun acc =>
      each (fun p : Nat × List DimTag => mkSet p.2 [p.1]) acc) s := by
    unfold splitByRegion
    rw [bind_of (load_ok.2 ⟨ho, rfl⟩), bind_of (dimtagreg_of hl s)]
  refine ⟨⟨?_, ?_⟩, ?_⟩
  · rintro ⟨ns, s', hs⟩
    rw [hunf] at hs
    obtain ⟨acc, s1, h1, _⟩ := bind_ok.1 hs
    obtain ⟨⟨l, h2⟩, _⟩ := splitLoop_ok.1 h1
    exact (completes_ok h2).2
  · intro hf
    obtain ⟨l, s1, h1⟩ := completes_of hf
    obtain ⟨s2, h2, _⟩ := each_alloc (f := fun p : Nat × List DimTag => mkSet p.2 [p.1])
      (l := b.pairs.foldl (fun a p => addTo p.2 p.1 a) []) (fun p _ s => mkSet_one p.2 p.1 s) s1
    exact ⟨_, s2, by rw [hunf, bind_of (splitLoop_ok.2 ⟨⟨l, h1⟩, rfl⟩)]; exact h2⟩
  · intro ns s' hs
    rw [hunf] at hs
    obtain ⟨acc, s1, h1, h2⟩ := bind_ok.1 hs
    obtain ⟨⟨l, h3⟩, rfl⟩ := splitLoop_ok.1 h1
    obtain ⟨c, _⟩ := completes_ok h3
    have hg := Grp.all (fun p : DimTag × Nat => p.2) (fun p => p.1) b.pairs
    generalize b.pairs.foldl (fun a p => addTo p.2 p.1 a) [] = acc at h1 h2 hg
    obtain ⟨s2, h4, h5⟩ := each_alloc (f := fun p : Nat × List DimTag => mkSet p.2 [p.1]) (l := acc)
      (fun p _ s => mkSet_one p.2 p.1 s) s1
    rw [h4] at h2
    cases h2
    refine ⟨acc.map Prod.fst, hg.nd, fun r => ?_, ?_, ?_, ?_⟩
    · rw [hg.keys]
      constructor
      · rintro ⟨p, hp, rfl⟩; exact (List.of_mem_zip hp).2
      · intro hr
        have : b.pairs.map Prod.snd = b.regs := List.map_snd_zip hl.le
        rw [← this] at hr
        obtain ⟨p, hp, rfl⟩ := List.mem_map.1 hr
        exact ⟨p, hp, rfl⟩
    · have hv := h5.new
      rw [List.length_map, Valid, List.forall₂_map_right_iff] at hv
      rw [List.forall₂_map_right_iff]
      refine List.Forall₂.imp (R := fun n q => s'.obj n = some ⟨q.2, q.2.map fun _ => q.1⟩ ∧ q ∈ acc) ?_ ?_
      · rintro n q ⟨h6, hq⟩
        have hv' : q.2 = (b.pairs.filter fun p => p.2 = q.1).map Prod.fst := hg.vals q hq
        have : (b.pairs.filter fun p => p.2 = q.1).map Prod.snd = q.2.map fun _ => q.1 := by
          rw [hv', List.map_map]
          refine List.map_congr_left fun p hp => ?_
          simpa using (List.mem_filter.1 hp).2
        rw [this, ← hv']
        exact h6
      · clear h4 h1 hg h5
        generalize List.range' s1.nobj acc.length = ns at hv
        have key : ∀ (l : List (Nat × List DimTag)) (ns : List Nat), (∀ q ∈ l, q ∈ acc) →
            List.Forall₂ (fun n (q : Nat × List DimTag) => s'.obj n = some ⟨q.2, q.2.map fun _ => q.1⟩) ns l →
            List.Forall₂ (fun n q => s'.obj n = some ⟨q.2, q.2.map fun _ => q.1⟩ ∧ q ∈ acc) ns l := by
          intro l ns hl hf
          induction hf with
          | nil => exact .nil
          | cons h1 _ ih =>
            exact .cons ⟨h1, hl _ List.mem_cons_self⟩ (ih fun q hq => hl q (List.mem_cons_of_mem _ hq))
        exact key acc ns (fun _ h => h) hv
    · intro p hp
      rw [h5.reg]
      exact c.new p hp
    · intro x hx
      rw [h5.old x (by rw [c.nobj]; exact hx), c.obj]

/-! ### `split_by_dimension` -/

theorem dimLoop_ok : ∀ {ps : List (DimTag × Nat)} {acc a : Nat → List (DimTag × Nat)} {s s' : St},
    dimLoop ps acc s = (.ok a, s') → (∃ l, completes ps s = (.ok l, s')) ∧ (∀ p ∈ ps, p.1.1 ≤ 3) ∧
      ∀ d, a d = acc d ++ ps.filter fun p => p.1.1 = d := by
  intro ps
  induction ps with
  | nil =>
    intro acc a s s' h
    cases h
    exact ⟨⟨[], rfl⟩, by simp, by simp⟩
  | cons p ps ih =>
    intro acc a s s' h
    rw [dimLoop] at h
    obtain ⟨r, s1, h1, h2⟩ := bind_ok.1 h
    obtain ⟨_, s2, h3, h4⟩ := bind_ok.1 h2
    obtain ⟨hc, rfl⟩ := check_ok.1 h3
    obtain ⟨⟨l, h5⟩, h6, h7⟩ := ih h4
    refine ⟨⟨r :: l, by rw [completes, each, bind_of h1]; exact bind_of h5⟩, fun q hq => ?_, fun d => ?_⟩
    · rcases List.mem_cons.1 hq with rfl | hq
      · simpa using hc
      · exact h6 q hq
    · rw [h7 d]
      by_cases hd : p.1.1 = d
      · subst hd; simp
      · rw [Function.update_of_ne (Ne.symm hd)]; simp [hd]

theorem dimLoop_of : ∀ {ps : List (DimTag × Nat)} {acc : Nat → List (DimTag × Nat)} {s s' : St} {l : List Nat},
    completes ps s = (.ok l, s') → (∀ p ∈ ps, p.1.1 ≤ 3) → ∃ a, dimLoop ps acc s = (.ok a, s') := by
  intro ps
  induction ps with
  | nil => intro acc s s' l h _; cases h; exact ⟨acc, rfl⟩
  | cons p ps ih =>
    intro acc s s' l h hd
    rw [completes, each] at h
    obtain ⟨r, s1, h1, h2⟩ := bind_ok.1 h
    obtain ⟨l', s2, h3, h4⟩ := bind_ok.1 h2
    cases h4
    obtain ⟨a, ha⟩ := ih (acc := Function.update acc p.1.1 (acc p.1.1 ++ [(p.1, p.2)])) h3
      fun q hq => hd q (List.mem_cons_of_mem _ hq)
    exact ⟨a, by rw [dimLoop, bind_of h1, bind_of (check_of (by simpa using hd p List.mem_cons_self) _)]; exact ha⟩

/-- `split_by_dimension` returns exactly if the dimensions are at most 3 and every region can have the dimension of its entities.
Then there are four new object sets: the one at `d` has the entities of dimension `d` in their order with their regions. -/
theorem split_by_dimension_partition {s : St} (h : Reach s) {o : Nat} {b : Obj} (ho : s.obj o = some b) :
    ((∃ ns s', splitByDimension o s = (.ok ns, s')) ↔ Fits s b.pairs ∧ ∀ t ∈ b.dts, t.1 ≤ 3) ∧
    ∀ ns s', splitByDimension o s = (.ok ns, s') →
      List.Forall₂ (fun n d => s'.obj n = some ⟨(b.pairs.filter fun p => p.1.1 = d).map Prod.fst,
        (b.pairs.filter fun p => p.1.1 = d).map Prod.snd⟩) ns [0, 1, 2, 3] ∧
      (∀ p ∈ b.pairs, (s'.reg p.2).dim = some (p.1.1 : Int)) ∧ (∀ x < s.nobj, s'.obj x = s.obj x) := by
  have hl := h.inv.len o b ho
  have hunf : splitByDimension o s = ((dimLoop b.pairs fun _ => []) >>= fun acc =>
      each (fun d => mkSet ((acc d).map Prod.fst) ((acc d).map Prod.snd)) [0, 1, 2, 3]) s := by
    unfold splitByDimension
    rw [bind_of (load_ok.2 ⟨ho, rfl⟩), bind_of (dimtagreg_of hl s)]
  have hmem : (∀ p ∈ b.pairs, p.1.1 ≤ 3) ↔ ∀ t ∈ b.dts, t.1 ≤ 3 := by
    have : b.pairs.map Prod.fst = b.dts := List.map_fst_zip hl.ge
    rw [← this]
    simp
  refine ⟨⟨?_, ?_⟩, ?_⟩
  · rintro ⟨ns, s', hs⟩
    rw [hunf] at hs
    obtain ⟨acc, s1, h1, _⟩ := bind_ok.1 hs
    obtain ⟨⟨l, h2⟩, h3, _⟩ := dimLoop_ok h1
    exact ⟨(completes_ok h2).2, hmem.1 h3⟩
  · rintro ⟨hf, hd⟩
    obtain ⟨l, s1, h1⟩ := completes_of hf
    obtain ⟨a, ha⟩ := dimLoop_of (acc := fun _ => []) h1 (hmem.2 hd)
    obtain ⟨s2, h2, _⟩ := each_alloc (f := fun d => mkSet ((a d).map Prod.fst) ((a d).map Prod.snd)) (l := [0, 1, 2, 3])
      (fun d _ s => mkSet_eq (by simp) s) s1
    exact ⟨_, s2, by rw [hunf, bind_of ha]; exact h2⟩
  · intro ns s' hs
    rw [hunf] at hs
    obtain ⟨acc, s1, h1, h2⟩ := bind_ok.1 hs
    obtain ⟨⟨l, h3⟩, _, hacc⟩ := dimLoop_ok h1
    obtain ⟨c, _⟩ := completes_ok h3
    obtain ⟨s2, h4, h5⟩ := each_alloc (f := fun d => mkSet ((acc d).map Prod.fst) ((acc d).map Prod.snd)) (l := [0, 1, 2, 3])
      (fun d _ s => mkSet_eq (by simp) s) s1
    rw [h4] at h2
    cases h2
    refine ⟨?_, ?_, ?_⟩
    · have hv := h5.new
      rw [List.length_map, Valid, List.forall₂_map_right_iff] at hv
      refine hv.imp fun n d h6 => ?_
      rw [h6, hacc d]
      simp
    · intro p hp
      rw [h5.reg]
      exact c.new p hp
    · intro x hx
      rw [h5.old x (by rw [c.nobj]; exact hx), c.obj]

end Verif.Gmsh
