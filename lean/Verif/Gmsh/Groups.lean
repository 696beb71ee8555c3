import Mathlib.Data.List.Dedup
import Verif.Gmsh.Split

/-! Physical groups made for the mesh. -/
namespace Verif.Gmsh
open M

theorem assignLoop_ok : ∀ {ps : List (DimTag × Nat)} {a : List (Nat × List Nat)} {n : List (Name × List Nat)} {s s' : St} {c},
    assignLoop ps a n s = (.ok c, s') ↔ (∃ l, completes ps s = (.ok l, s')) ∧
      c = (ps.foldl (fun a p => addTo p.2 p.1.2 a) a, ps.foldl (fun n p => addTo (s.reg p.2).name p.2 n) n) := by
  intro ps
  induction ps with
  | nil =>
    intro a n s s' c
    rw [assignLoop, pure_apply, completes, each, pure_apply]
    simp [eq_comm, and_comm]
  | cons p ps ih =>
    intro a n s s' c
    rw [assignLoop, bind_ok, completes, each]
    have nm : ∀ {r s1}, complete p.2 p.1.1 s = (.ok r, s1) →
        (fun n (q : DimTag × Nat) => addTo (s1.reg q.2).name q.2 n) = fun n q => addTo (s.reg q.2).name q.2 n := by
      intro r s1 h1
      funext n q
      rw [(complete_ok h1).1.name]
    constructor
    · rintro ⟨r, s1, h1, h2⟩
      obtain ⟨x, s2, h3, h4⟩ := bind_ok.1 h2
      cases h3
      obtain ⟨⟨l, h5⟩, h6⟩ := ih.1 h4
      refine ⟨⟨r :: l, by rw [bind_of h1]; exact bind_of h5⟩, ?_⟩
      rw [h6, nm h1, (complete_ok h1).1.name]
      rfl
    · rintro ⟨⟨l, hl⟩, h4⟩
      obtain ⟨r, s1, h1, h2⟩ := bind_ok.1 hl
      obtain ⟨l', s2, h3, h5⟩ := bind_ok.1 h2
      cases h5
      refine ⟨r, s1, h1, bind_ok.2 ⟨s1.reg p.2, s1, rfl, ih.2 ⟨⟨l', h3⟩, ?_⟩⟩⟩
      rw [h4, nm h1, (complete_ok h1).1.name]
      rfl

/-! ### Unique names -/

theorem sorted_pairwise (l : List Nat) : (sorted l).Pairwise (· < ·) := by
  have h1 : (sorted l).Pairwise (· ≤ ·) := List.pairwise_insertionSort (· ≤ ·) _
  have h2 : (sorted l).Nodup := (List.perm_insertionSort (· ≤ ·) _).nodup_iff.2 (List.nodup_dedup l)
  exact (h1.and h2).imp fun h => lt_of_le_of_ne h.1 h.2

theorem mem_sorted {l : List Nat} {r : Nat} : r ∈ sorted l ↔ r ∈ l := by
  rw [sorted, (List.perm_insertionSort (· ≤ ·) _).mem_iff, List.mem_dedup]

theorem index_sorted : ∀ {l : List Nat} {j r : Nat}, l.Pairwise (· < ·) → l[j]? = some r → (l.filter (· < r)).length = j := by
  intro l
  induction l with
  | nil => intro j r _ h; simp at h
  | cons a t ih =>
    intro j r hp h
    rw [List.pairwise_cons] at hp
    cases j with
    | zero =>
      simp only [List.length_cons, Nat.zero_lt_succ, getElem?_pos, List.getElem_cons_zero, Option.some.injEq] at h
      subst h
      rw [List.length_eq_zero_iff, List.filter_eq_nil_iff]
      intro x hx
      rcases List.mem_cons.1 hx with rfl | hx
      · simp
      · have := hp.1 x hx; simp; omega
    | succ j =>
      rw [List.getElem?_cons_succ] at h
      have := hp.1 r (List.mem_of_getElem? h)
      rw [List.filter_cons_of_pos (by simpa using this), List.length_cons, ih hp.2 h]

theorem renameLoop_eq : ∀ {l : List Nat} {i : Nat} {s : St}, l.Nodup → ∃ rg, renameLoop i l s = (.ok (), { s with reg := rg }) ∧
    (∀ r, r ∉ l → rg r = s.reg r) ∧ ∀ j r, l[j]? = some r → rg r = ⟨(s.reg r).dim, suffix (s.reg r).name (i + j)⟩ := by
  intro l
  induction l with
  | nil => intro i s _; exact ⟨s.reg, rfl, fun _ _ => rfl, by simp⟩
  | cons a t ih =>
    intro i s hn
    rw [List.nodup_cons] at hn
    obtain ⟨rg, h1, h2, h3⟩ := ih (i := i + 1) (s := (setUniqueName a i s).2) hn.2
    refine ⟨rg, h1, fun r hr => ?_, fun j r hj => ?_⟩
    · rw [List.mem_cons, not_or] at hr
      rw [h2 r hr.2]
      exact Function.update_of_ne hr.1 ..
    · cases j with
      | zero =>
        have : a = r := by simpa using hj
        subst this
        rw [h2 a hn.1]
        exact Function.update_self ..
      | succ j =>
        rw [List.getElem?_cons_succ] at hj
        have hne : r ≠ a := fun h => hn.1 (h ▸ List.mem_of_getElem? hj)
        have hu : (setUniqueName a i s).2.reg r = s.reg r := Function.update_of_ne hne ..
        rw [h3 j r hj, hu, Nat.add_assoc, Nat.add_comm 1 j]

theorem uniqueLoop_eq : ∀ {L : List (List Nat)} {s : St}, L.Pairwise (fun a b => ∀ x ∈ a, x ∉ b) →
    ∃ rg, uniqueLoop L s = (.ok (), { s with reg := rg }) ∧ (∀ r, (∀ l ∈ L, r ∉ l) → rg r = s.reg r) ∧
      ∀ l ∈ L, ∀ r ∈ l, rg r = if 1 < (sorted l).length then
        ⟨(s.reg r).dim, suffix (s.reg r).name ((sorted l).filter (· < r)).length⟩ else s.reg r := by
  intro L
  induction L with
  | nil => intro s _; exact ⟨s.reg, rfl, fun _ _ => rfl, by simp⟩
  | cons l L ih =>
    intro s hp
    rw [List.pairwise_cons] at hp
    have step : ∃ rg, renameIds l s = (.ok (), { s with reg := rg }) ∧
        (∀ r, r ∉ l → rg r = s.reg r) ∧ ∀ r ∈ l, rg r = if 1 < (sorted l).length then
          ⟨(s.reg r).dim, suffix (s.reg r).name ((sorted l).filter (· < r)).length⟩ else s.reg r := by
      by_cases hl : 1 < (sorted l).length
      · obtain ⟨rg, h1, h2, h3⟩ := renameLoop_eq (i := 0) (s := s) ((sorted_pairwise l).imp Nat.ne_of_lt)
        refine ⟨rg, by rw [renameIds, if_pos hl]; exact h1, fun r hr => h2 r (mt mem_sorted.1 hr), fun r hr => ?_⟩
        obtain ⟨j, hj⟩ := List.mem_iff_getElem?.1 (mem_sorted.2 hr)
        rw [if_pos hl, h3 j r hj, index_sorted (sorted_pairwise l) hj, Nat.zero_add]
      · exact ⟨s.reg, by rw [renameIds, if_neg hl]; rfl, fun _ _ => rfl, fun r _ => by rw [if_neg hl]⟩
    obtain ⟨rg1, h1, h2, h3⟩ := step
    obtain ⟨rg, h4, h5, h6⟩ := ih (s := { s with reg := rg1 }) hp.2
    refine ⟨rg, ?_, fun r hr => ?_, fun l' hl' r hr => ?_⟩
    · rw [uniqueLoop]
      exact (bind_of h1).trans h4
    · rw [h5 r fun l' hl' => hr l' (List.mem_cons_of_mem _ hl')]
      exact h2 r (hr l List.mem_cons_self)
    · rcases List.mem_cons.1 hl' with rfl | hl'
      · rw [h5 r fun l'' hl'' => hp.1 l'' hl'' r hr]
        exact h3 r hr
      · rw [h6 l' hl' r hr]
        have : r ∉ l := fun hrl => hp.1 l' hl' r hrl hr
        simp only [h2 r this]

theorem each_addGroup : ∀ {l : List (Nat × List Nat)} {s : St}, ∃ us, each (fun p : Nat × List Nat => addGroup p.1 p.2) l s =
    (.ok us, { s with groups := s.groups ++ l.map fun p => ((s.reg p.1).dim, p.2, (s.reg p.1).name) }) := by
  intro l
  induction l with
  | nil => intro s; exact ⟨[], by simp [each, pure_apply]⟩
  | cons p l ih =>
    intro s
    obtain ⟨us, h⟩ := ih (s := { s with groups := s.groups ++ [((s.reg p.1).dim, p.2, (s.reg p.1).name)] })
    refine ⟨() :: us, ?_⟩
    rw [each, bind_of (show addGroup p.1 p.2 s = (.ok (), _) from rfl), bind_of h]
    simp [pure_apply]

/-- Physical groups of the entities `ps` with their regions: what `s'` has in comparison with `s`. -/
structure Grouped (s s' : St) (ps : List (DimTag × Nat)) (rs : List Nat) : Prop where
  /-- Each region of an entity is used once. -/
  nd : rs.Nodup
  regions : ∀ r, r ∈ rs ↔ ∃ p ∈ ps, p.2 = r
  /-- There is one group for every region, with the tags of all entities of the region in their order. -/
  groups : s'.groups = s.groups ++
    rs.map fun r => ((s'.reg r).dim, (ps.filter fun p => p.2 = r).map fun p => p.1.2, (s'.reg r).name)
  /-- The dimension of the group is the dimension of all its entities. -/
  dim : ∀ p ∈ ps, (s'.reg p.2).dim = some (p.1.1 : Int)
  /-- A name of more regions gets the rank of the id as a suffix. -/
  name : ∀ r ∈ rs, (s'.reg r).name = if ∃ q ∈ rs, q ≠ r ∧ (s.reg q).name = (s.reg r).name then
    suffix (s.reg r).name (rs.filter fun q => q < r ∧ (s.reg q).name = (s.reg r).name).length else (s.reg r).name
  old : ∀ r, r ∉ rs → s'.reg r = s.reg r
  obj : ∀ o < s.nobj, s'.obj o = s.obj o
  names : s'.names = s.names

theorem assign_grouped {s : St} (h : Inv s) {o : Nat} {b : Obj} (ho : s.obj o = some b) :
    ((∃ s', assignGroups o s = (.ok (), s')) ↔ Fits s b.pairs) ∧
    ∀ s', assignGroups o s = (.ok (), s') → ∃ rs, Grouped s s' b.pairs rs := by
  have hl := h.len o b ho
  -- the run, for regions which fit
  have run : ∀ {l s1}, completes b.pairs s = (.ok l, s1) → ∃ s' rs, assignGroups o s = (.ok (), s') ∧ Grouped s s' b.pairs rs := by
    intro l s1 hc
    obtain ⟨c, _⟩ := completes_ok hc
    have ga := Grp.all (fun p : DimTag × Nat => p.2) (fun p => p.1.2) b.pairs
    have gn := Grp.all (fun p : DimTag × Nat => (s.reg p.2).name) (fun p => p.2) b.pairs
    have hrun := (assignLoop_ok (a := []) (n := [])).2 ⟨⟨l, hc⟩, rfl⟩
    generalize b.pairs.foldl (fun a p => addTo p.2 p.1.2 a) [] = a at hrun ga
    generalize b.pairs.foldl (fun n p => addTo (s.reg p.2).name p.2 n) [] = n at hrun gn
    have mem_n : ∀ q ∈ n, ∀ r, r ∈ q.2 ↔ (∃ p ∈ b.pairs, p.2 = r) ∧ (s.reg r).name = q.1 := by
      intro q hq r
      rw [gn.vals q hq, List.mem_map]
      constructor
      · rintro ⟨p, hp, rfl⟩
        rw [List.mem_filter] at hp
        exact ⟨⟨p, hp.1, rfl⟩, by simpa using hp.2⟩
      · rintro ⟨⟨p, hp, rfl⟩, hn⟩
        exact ⟨p, List.mem_filter.2 ⟨hp, by simpa using hn⟩, rfl⟩
    have disj : (n.map Prod.snd).Pairwise (fun x y => ∀ r ∈ x, r ∉ y) := by
      rw [List.pairwise_map]
      have hnd := gn.nd
      rw [List.Nodup, List.pairwise_map] at hnd
      refine List.Pairwise.imp_of_mem ?_ hnd
      intro q q' hq hq' hne r hr hr'
      exact hne (((mem_n q hq r).1 hr).2.symm.trans ((mem_n q' hq' r).1 hr').2)
    obtain ⟨rg, h1, h2, h3⟩ := uniqueLoop_eq (s := s1) disj
    obtain ⟨us, h4⟩ := each_addGroup (l := a) (s := { s1 with reg := rg })
    have hrs : ∀ r, r ∈ a.map Prod.fst ↔ ∃ p ∈ b.pairs, p.2 = r := ga.keys
    have hname : ∀ r, (∃ p ∈ b.pairs, p.2 = r) → rg r = if ∃ q ∈ a.map Prod.fst, q ≠ r ∧ (s.reg q).name = (s.reg r).name then
        ⟨(s1.reg r).dim, suffix (s.reg r).name
          ((a.map Prod.fst).filter fun q => q < r ∧ (s.reg q).name = (s.reg r).name).length⟩ else s1.reg r := by
      intro r hr
      obtain ⟨p, hp, hpr⟩ := hr
      obtain ⟨q, hq, hqn⟩ := List.mem_map.1 ((gn.keys (s.reg r).name).2 ⟨p, hp, by rw [hpr]⟩)
      have hrq : r ∈ q.2 := (mem_n q hq r).2 ⟨⟨p, hp, hpr⟩, hqn.symm⟩
      rw [h3 q.2 (List.mem_map_of_mem hq) r hrq, c.name]
      have hperm : (sorted q.2).Perm ((a.map Prod.fst).filter fun x => (s.reg x).name = (s.reg r).name) := by
        refine (List.perm_ext_iff_of_nodup ((sorted_pairwise _).imp Nat.ne_of_lt) (ga.nd.filter _)).2 fun x => ?_
        rw [mem_sorted, mem_n q hq x, List.mem_filter, hrs x, hqn]
        simp
      have hiff : 1 < (sorted q.2).length ↔ ∃ x ∈ a.map Prod.fst, x ≠ r ∧ (s.reg x).name = (s.reg r).name := by
        constructor
        · intro hlen
          by_contra hno
          have hall : ∀ x ∈ sorted q.2, x = r := by
            intro x hx
            have hx' := List.mem_filter.1 (hperm.mem_iff.1 hx)
            by_contra hne
            exact hno ⟨x, hx'.1, hne, by simpa using hx'.2⟩
          have hnd : (sorted q.2).Nodup := (sorted_pairwise _).imp Nat.ne_of_lt
          match hq2 : sorted q.2, hlen, hall, hnd with
          | x :: y :: t, _, hall, hnd =>
            rw [hall x (by simp), hall y (by simp)] at hnd
            simp at hnd
        · rintro ⟨x, hx, hne, hxn⟩
          have h1 : x ∈ sorted q.2 := hperm.mem_iff.2 (List.mem_filter.2 ⟨hx, by simpa using hxn⟩)
          have h2 : r ∈ sorted q.2 := mem_sorted.2 hrq
          match hq2 : sorted q.2, h1, h2 with
          | [y], h1, h2 => exact absurd ((List.mem_singleton.1 h1).trans (List.mem_singleton.1 h2).symm) hne
          | y :: z :: t, _, _ => simp
      have hcnt : ((sorted q.2).filter (· < r)).length =
          ((a.map Prod.fst).filter fun q => q < r ∧ (s.reg q).name = (s.reg r).name).length := by
        rw [(hperm.filter _).length_eq, List.filter_filter]
        congr 1
        refine List.filter_congr fun x _ => ?_
        simp
      rw [hcnt]
      exact if_congr hiff rfl rfl
    have hdim : ∀ r, (∃ p ∈ b.pairs, p.2 = r) → (rg r).dim = (s1.reg r).dim := by
      intro r hr
      rw [hname r hr]
      split <;> rfl
    refine ⟨{ s1 with reg := rg, groups := s1.groups ++ a.map fun p => ((rg p.1).dim, p.2, (rg p.1).name) },
      a.map Prod.fst, ?_, ?_⟩
    · unfold assignGroups
      rw [bind_of (load_ok.2 ⟨ho, rfl⟩), bind_of (dimtagreg_of hl s), bind_of hrun]
      exact (bind_of h1).trans ((bind_of h4).trans rfl)
    · refine ⟨ga.nd, hrs, ?_, ?_, ?_, ?_, fun _ _ => by rw [c.obj], c.names⟩
      · show s1.groups ++ _ = _
        rw [c.groups, List.map_map]
        congr 1
        refine List.map_congr_left fun q hq => ?_
        have : q.2 = (b.pairs.filter fun p => p.2 = q.1).map fun p => p.1.2 := ga.vals q hq
        show (_, q.2, _) = _
        rw [this]
        rfl
      · intro p hp
        exact (hdim p.2 ⟨p, hp, rfl⟩).trans (c.new p hp)
      · intro r hr
        show (rg r).name = _
        rw [hname r ((hrs r).1 hr)]
        split
        · rfl
        · exact c.name r
      · intro r hr
        have hr' : ¬ ∃ p ∈ b.pairs, p.2 = r := mt (hrs r).2 hr
        show rg r = _
        rw [h2 r, c.old r]
        · intro hm
          obtain ⟨p, hp, rfl⟩ := List.mem_map.1 hm
          exact hr' ⟨p, hp, rfl⟩
        · intro l hl hrl
          obtain ⟨q, hq, rfl⟩ := List.mem_map.1 hl
          exact hr' ((mem_n q hq r).1 hrl).1
  have need : ∀ {s'}, assignGroups o s = (.ok (), s') → ∃ l s1, completes b.pairs s = (.ok l, s1) := by
    intro s' hs
    unfold assignGroups at hs
    rw [bind_of (load_ok.2 ⟨ho, rfl⟩), bind_of (dimtagreg_of hl s)] at hs
    obtain ⟨x, s1, h1, _⟩ := bind_ok.1 hs
    obtain ⟨⟨l, h2⟩, _⟩ := assignLoop_ok.1 h1
    exact ⟨l, s1, h2⟩
  refine ⟨⟨fun ⟨s', hs⟩ => ?_, fun hf => ?_⟩, fun s' hs => ?_⟩
  · obtain ⟨l, s1, h2⟩ := need hs
    exact (completes_ok h2).2
  · obtain ⟨l, s1, h2⟩ := completes_of hf
    obtain ⟨s', _, h3, _⟩ := run h2
    exact ⟨s', h3⟩
  · obtain ⟨l, s1, h2⟩ := need hs
    obtain ⟨s2, rs, h3, h4⟩ := run h2
    rw [h3] at hs
    cases hs
    exact ⟨rs, h4⟩

/-- `make_mesh` of valid object sets makes the physical groups exactly if every region can have the dimension of its entities.
Then each region is one physical group, which has exactly the entities of this region. -/
theorem mesh_groups {s : St} (h : Reach s) {objs : List Nat} {bs : List Obj} (hv : Valid s objs bs) :
    ((∃ s', makeMesh objs s = (.ok (), s')) ↔ Fits s (bs.flatMap Obj.pairs)) ∧
    ∀ s', makeMesh objs s = (.ok (), s') → ∃ rs, Grouped s s' (bs.flatMap Obj.pairs) rs := by
  have hl : ∀ b ∈ bs, b.regs.length = b.dts.length := by
    intro b hb
    obtain ⟨i, hi, rfl⟩ := List.getElem_of_mem hb
    have := List.Forall₂.get hv (i := i) (by rw [hv.length_eq]; exact hi) hi
    exact h.inv.len _ _ this
  rcases group_eq hv hl with ⟨_, o, b, rfl, rfl, hg⟩ | ⟨_, hg⟩
  · have hm : makeMesh [o] s = assignGroups o s := by unfold makeMesh; exact bind_of hg
    rw [hm, List.flatMap_singleton]
    exact assign_grouped h.inv (List.forall₂_cons.1 hv).1
  · have hm : makeMesh objs s = assignGroups s.nobj (put s ⟨bs.flatMap Obj.dts, bs.flatMap Obj.regs⟩) := by
      unfold makeMesh; exact bind_of hg
    have hI : Inv (put s ⟨bs.flatMap Obj.dts, bs.flatMap Obj.regs⟩) := by
      have := (Reach.step (o := .group objs) h trivial).inv
      rwa [step, hg] at this
    obtain ⟨h1, h2⟩ := assign_grouped (o := s.nobj) (b := ⟨bs.flatMap Obj.dts, bs.flatMap Obj.regs⟩) hI
      (Function.update_self ..)
    have hp : Obj.pairs ⟨bs.flatMap Obj.dts, bs.flatMap Obj.regs⟩ = bs.flatMap Obj.pairs := flat_pairs hl
    rw [hp] at h1 h2
    rw [hm]
    refine ⟨h1, fun s' hs => ?_⟩
    obtain ⟨rs, g⟩ := h2 s' hs
    refine ⟨rs, g.nd, g.regions, g.groups, g.dim, g.name, g.old, fun o ho => ?_, g.names⟩
    rw [g.obj o (Nat.lt_succ_of_lt ho)]
    exact Function.update_of_ne (Nat.ne_of_lt ho) ..

/-! ### Uniqueness of the names -/

theorem suffix_inj {n m : Name} {i j : Nat} (h : suffix n i = suffix m j) : n = m ∧ i = j := by
  have key : ∀ (n : Name) (i : Nat), (suffix n i).reverse.takeWhile (· ≠ '_') = (Nat.toDigits 10 i).reverse := by
    intro n i
    rw [suffix, List.reverse_append, List.reverse_cons, List.append_assoc, List.takeWhile_append_of_pos]
    · simp
    · intro c hc
      have : c ≠ '_' := fun he => Nat.underscore_not_in_toDigits (n := i) (he ▸ List.mem_reverse.1 hc)
      simpa using this
  have hd : Nat.toDigits 10 i = Nat.toDigits 10 j := by
    have := key n i
    rw [h, key m j] at this
    exact (List.reverse_injective this).symm
  have hij : i = j := by
    have := congrArg (fun l => Nat.ofDigitChars 10 l 0) hd
    simpa [Nat.ofDigitChars_ten_toDigits] using this
  refine ⟨?_, hij⟩
  rw [suffix, suffix, hd] at h
  exact List.append_cancel_right h

/-- The names of the physical groups of a mesh are different, if no region has by accident the name made for another one.
Missing: without this hypothesis the names may be equal, see `mesh_names_clash`. -/
theorem mesh_names_unique_partial {s s' : St} {ps : List (DimTag × Nat)} {rs : List Nat} (g : Grouped s s' ps rs)
    (hc : ∀ r ∈ rs, (∃ q ∈ rs, q ≠ r ∧ (s.reg q).name = (s.reg r).name) → ∀ q ∈ rs, ∀ i < rs.length,
      (s.reg q).name ≠ suffix (s.reg r).name i) :
    ∀ r ∈ rs, ∀ q ∈ rs, r ≠ q → (s'.reg r).name ≠ (s'.reg q).name := by
  have rank : ∀ r ∈ rs, ∀ (n : Name), (s.reg r).name = n → (rs.filter fun q => q < r ∧ (s.reg q).name = n).length < rs.length := by
    intro r hr n _
    rw [List.length_filter_lt_length_iff_exists]
    exact ⟨r, hr, by simp⟩
  have mono : ∀ r ∈ rs, ∀ q ∈ rs, r < q → (s.reg r).name = (s.reg q).name →
      (rs.filter fun x => x < r ∧ (s.reg x).name = (s.reg r).name).length <
        (rs.filter fun x => x < q ∧ (s.reg x).name = (s.reg q).name).length := by
    intro r hr q hq hlt hn
    have : (rs.filter fun x => x < r ∧ (s.reg x).name = (s.reg r).name) =
        (rs.filter fun x => x < q ∧ (s.reg x).name = (s.reg q).name).filter fun x => x < r := by
      rw [List.filter_filter]
      refine List.filter_congr fun x _ => ?_
      rw [← hn, ← Bool.decide_and, decide_eq_decide]
      constructor
      · rintro ⟨h1, h2⟩; exact ⟨h1, h1.trans hlt, h2⟩
      · rintro ⟨h1, _, h2⟩; exact ⟨h1, h2⟩
    rw [this, List.length_filter_lt_length_iff_exists]
    exact ⟨r, List.mem_filter.2 ⟨hr, by simp [hlt, hn]⟩, by simp⟩
  intro r hr q hq hne
  rw [g.name r hr, g.name q hq]
  split <;> split
  · rename_i h1 h2
    intro he
    obtain ⟨hn, hi⟩ := suffix_inj he
    rcases Nat.lt_or_gt_of_ne hne with hlt | hlt
    · have := mono r hr q hq hlt hn; omega
    · have := mono q hq r hr hlt hn.symm; omega
  · rename_i h1 h2
    exact fun he => hc r hr h1 q hq _ (rank r hr _ rfl) he.symm
  · rename_i h1 h2
    exact fun he => hc q hq h2 r hr _ (rank q hq _ rfl) he
  · rename_i h1 h2
    exact fun he => h1 ⟨q, hq, hne.symm, he.symm⟩

end Verif.Gmsh
