import Verif.Merge.Single

/-! Composition of the maps over a list of decompositions. -/

namespace Verif.Merge
open Verif.Decomp (St Id HE flip upd sidePoly)
open Verif.Front (Fr Cfg Err Range Good Crosses bindOk liftD_ok key_ok checkOk needOk)

/-- The loop over one map: each key gets the value of its root. `L` are the ids before. -/
theorem compose_ok {L : Id → Prop} : ∀ {cs m : Dict Id}, Dist cs → Dist m → (∀ i v, get m i = some v → L i ∨ get cs i = none) →
    (∀ i j, (i, j) ∈ cs → L j ∧ (L i → i = j)) → ∃ m', compose cs m = .ok m' ∧ Dist m' ∧ (∀ x, get m' x = get m (root cs x))
  | [], m, _, hm, _, _ => ⟨m, rfl, hm, fun x => by simp [root, get]⟩
  | (i, j) :: cs, m, hc, hm, hk, hcs => by
    obtain ⟨hi, hc'⟩ := List.nodup_cons.1 hc
    obtain ⟨hj, hij⟩ := hcs i j (by simp)
    have hni : get cs i = none := by
      cases hg : get cs i with
      | none => rfl
      | some v => exact absurd (List.mem_map.2 ⟨(i, v), mem_of_get hg, rfl⟩) hi
    have hsub : ∀ x v, get m x = some v → L x ∨ get cs x = none := by
      intro x v hx
      rcases hk x v hx with h | h
      · exact Or.inl h
      · right
        simp only [get] at h
        split at h
        · cases h
        · exact h
    have hroot : ∀ x, root ((i, j) :: cs) x = if x = i then j else root cs x := by
      intro x
      unfold root
      simp only [get]
      by_cases hx : i = x
      · rw [if_pos hx, if_pos hx.symm]; rfl
      · rw [if_neg hx, if_neg fun hh => hx hh.symm]
    rw [compose]
    cases hv : get m j with
    | none =>
      obtain ⟨m', e1, e2, e3⟩ := compose_ok hc' hm hsub fun x y hxy => hcs x y (by simp [hxy])
      refine ⟨m', e1, e2, fun x => ?_⟩
      rw [e3, hroot]
      split
      · next hx =>
        subst hx
        rw [hv, root_of_none hni]
        cases hg : get m x with
        | none => rfl
        | some w =>
          rcases hk x w hg with h | h
          · rw [hij h] at hg
            rw [hv] at hg
            cases hg
          · simp [get] at h
      · rfl
    | some v =>
      have hchk : get m i = none ∨ i = j := by
        cases hg : get m i with
        | none => exact Or.inl rfl
        | some w =>
          rcases hk i w hg with h | h
          · exact Or.inr (hij h)
          · simp [get] at h
      obtain ⟨m', e1, e2, e3⟩ := compose_ok (m := set m i v) hc' (hm.set i v)
        (fun x w hx => by
          rw [get_set] at hx
          split at hx
          · next hh => exact Or.inr (hh ▸ hni)
          · exact hsub x w hx)
        fun x y hxy => hcs x y (by simp [hxy])
      refine ⟨m', ?_, e2, fun x => ?_⟩
      · simp only [bindOk, checkOk]
        exact ⟨(), hchk, e1⟩
      · rw [e3, hroot, get_set]
        by_cases hx : x = i
        · subst hx
          rw [root_of_none hni, if_pos rfl, if_pos rfl, hv]
        · rw [if_neg hx]
          have : root cs x ≠ i ∨ i = j := by
            by_cases hri : root cs x = i
            · right
              cases hg : get cs x with
              | none => rw [root_of_none hg] at hri; exact absurd hri hx
              | some y =>
                have hyi : y = i := by
                  unfold root at hri
                  rw [hg] at hri
                  exact hri
                exact hij (hyi ▸ (hcs x y (by simp [mem_of_get hg])).1)
            · exact Or.inl hri
          by_cases hh : root cs x = i
          · rw [if_pos hh]
            rcases this with h | h
            · exact absurd hh h
            · rw [hh, h, hv]
          · rw [if_neg hh]

section
variable {K : Type} [Field K] [LinearOrder K] [IsStrictOrderedRing K]

/-- The ids in the maps of one decomposition are live. -/
structure Dims.In (d : Dims) (s : St K) : Prop where
  dist1 : Dist d.segs
  dist2 : Dist d.polys
  pts : ∀ i v, get d.pts i = some v → i ∈ s.pid.live
  segs : ∀ i v, get d.segs i = some v → i ∈ s.sid.live
  polys : ∀ i v, get d.polys i = some v → i ∈ s.qid.live

/-- Maps `d` of a decomposition after a further intersection with the maps `m`. -/
structure Carried (m : Maps) (d d' : Dims) : Prop where
  pts : d'.pts = d.pts
  segs : ∀ x, get d'.segs x = get d.segs (root m.self1 x)
  polys : ∀ x, get d'.polys x = get d.polys (root m.self2 x)

theorem composeAll_ok {s0 so : St K} {f' : Fr K} {m : Maps} {g : Log K} {d0 : Dict (Option Id)} {tol : K} (hM : Merged tol s0 so f' m g d0) :
    ∀ {ds : List Dims}, (∀ d ∈ ds, d.In s0) → ∃ ds', composeAll m ds = .ok ds' ∧ List.Forall₂ (Carried m) ds ds' ∧ ∀ d ∈ ds', d.In f'.dec
  | [], _ => ⟨[], rfl, .nil, by simp⟩
  | d :: ds, h => by
    obtain ⟨iv, hL⟩ := hM.lift
    have hd := h d (by simp)
    obtain ⟨x, x1, x2, x3⟩ := compose_ok (L := fun i => i ∈ s0.sid.live) hM.keys.self1 hd.dist1 (fun i v hv => Or.inl (hd.segs i v hv))
      fun i j hij => by
        have hg := get_of_mem hM.keys.self1 hij
        refine ⟨hL.val1 i j hg, fun hi => ?_⟩
        have := (hL.old1 i hi).2
        unfold root at this
        rw [hg] at this
        exact this.symm
    have hval2 : ∀ i j, get m.self2 i = some j → j ∈ s0.qid.live ∧ (i ∈ s0.qid.live → i = j) := by
      intro i j hg
      have hp := hL.poly i (hL.key2 i j hg)
      have hr : root m.self2 i = j := by unfold root; rw [hg]; rfl
      refine ⟨hr ▸ hp, fun hi => ?_⟩
      rw [← hr, (hL.old2 i hi).2]
    obtain ⟨y, y1, y2, y3⟩ := compose_ok (L := fun i => i ∈ s0.qid.live) hM.keys.self2 hd.dist2 (fun i v hv => Or.inl (hd.polys i v hv))
      fun i j hij => hval2 i j (get_of_mem hM.keys.self2 hij)
    obtain ⟨ds', e1, e2, e3⟩ := composeAll_ok hM (ds := ds) fun d hd => h d (by simp [hd])
    refine ⟨⟨d.pts, x, y⟩ :: ds', ?_, .cons ⟨rfl, x3, y3⟩ e2, ?_⟩
    · rw [composeAll]
      simp only [bindOk]
      exact ⟨x, x1, y, y1, ds', e1, rfl⟩
    · intro d' hd'
      rcases List.mem_cons.1 hd' with rfl | hd'
      · refine ⟨x2, y2, fun i v hv => (hL.pts i (hd.pts i v hv)).1, fun i v hv => ?_, fun i v hv => ?_⟩
        · dsimp only at hv
          rw [x3] at hv
          have := hd.segs _ _ hv
          cases hg : get m.self1 i with
          | none =>
            rw [root_of_none hg] at this
            exact (hL.old1 i this).1
          | some j => exact hL.key1 i j hg
        · dsimp only at hv
          rw [y3] at hv
          have := hd.polys _ _ hv
          cases hg : get m.self2 i with
          | none =>
            rw [root_of_none hg] at this
            exact (hL.old2 i this).1
          | some j => exact hL.key2 i j hg
      · exact e3 d' hd'

theorem get_known {d : Dict (Option Id)} (h : Dist d) (x : Id) : get (known d) x = (get d x).join := by
  induction d with
  | nil => rfl
  | cons y d ih =>
    obtain ⟨q, v⟩ := y
    obtain ⟨h1, h2⟩ := List.nodup_cons.1 h
    cases v with
    | some p =>
      simp only [known, get]
      split
      · rfl
      · exact ih h2
    | none =>
      simp only [known, get]
      split
      · next hh =>
        subst hh
        rw [ih h2]
        cases hg : get d q with
        | none => rfl
        | some w => exact absurd (List.mem_map.2 ⟨(q, w), mem_of_get hg, rfl⟩) h1
      · exact ih h2

theorem known_dist {d : Dict (Option Id)} (h : Dist d) : Dist (known d) := by
  induction d with
  | nil => exact List.nodup_nil
  | cons y d ih =>
    obtain ⟨q, v⟩ := y
    obtain ⟨h1, h2⟩ := List.nodup_cons.1 h
    cases v with
    | none => exact ih h2
    | some p =>
      refine List.nodup_cons.2 ⟨fun hh => h1 ?_, ih h2⟩
      obtain ⟨⟨a, b⟩, hab, rfl⟩ := List.mem_map.1 hh
      have hg := get_of_mem (ih h2) hab
      rw [get_known h2] at hg
      dsimp only
      cases hgd : get d a with
      | none => rw [hgd] at hg; cases hg
      | some w => exact List.mem_map.2 ⟨(a, w), mem_of_get hgd, rfl⟩

/-- The intersections of a run of `intersect_decompositions`, with the results. -/
inductive Stages (c : Cfg K) (tol : K) : Fr K → List (Fr K) → List (Maps × Log K × Fr K) → Prop
  | nil {f : Fr K} : Stages c tol f [] []
  | cons {f f1 o : Fr K} {os : List (Fr K)} {m : Maps} {g : Log K} {st : List (Maps × Log K × Fr K)} :
      intersectSingle c tol o.dec f = .ok (m, g, f1) → Stages c tol f1 os st → Stages c tol f (o :: os) ((m, g, f1) :: st)

/-- The segment before the intersections `st` of which `e` is a part, by the pairwise maps. -/
def back1 : List (Maps × Log K × Fr K) → Id → Id
  | [], e => e
  | x :: st, e => root x.1.self1 (back1 st e)

/-- The polygon before the intersections `st` of which `q` is a part, by the pairwise maps. -/
def back2 : List (Maps × Log K × Fr K) → Id → Id
  | [], q => q
  | x :: st, q => root x.1.self2 (back2 st q)

/-- The maps `ds` are those of the intersections `st` composed with the maps of the later intersections. -/
inductive Composed : List (Maps × Log K × Fr K) → List Dims → Prop
  | nil : Composed [] []
  | cons {m : Maps} {g : Log K} {f : Fr K} {st : List (Maps × Log K × Fr K)} {d : Dims} {ds : List Dims} : d.pts = m.other0 →
      (∀ e, get d.segs e = get m.other1 (back1 st e)) → (∀ q, get d.polys q = (get m.other2 (back2 st q)).join) →
      Composed st ds → Composed ((m, g, f) :: st) (d :: ds)

/-- The maps `d'` are `d` composed with the maps of the intersections `st`. -/
structure Follows (st : List (Maps × Log K × Fr K)) (d d' : Dims) : Prop where
  pts : d'.pts = d.pts
  segs : ∀ x, get d'.segs x = get d.segs (back1 st x)
  polys : ∀ x, get d'.polys x = get d.polys (back2 st x)

theorem intersectAll_stages {c : Cfg K} {tol : K} : ∀ {os : List (Fr K)} {ms ms' : List Dims} {f f' : Fr K},
    intersectAll c tol os ms f = .ok (ms', f') → ∃ st, Stages c tol f os st
  | [], _, _, _, _, _ => ⟨[], .nil⟩
  | o :: os, ms, ms', f, f', hs => by
    rw [intersectAll] at hs
    simp only [bindOk] at hs
    obtain ⟨⟨m, g, f1⟩, h1, ms1, h2, _, h3, _, h4, _, h5, hs⟩ := hs
    obtain ⟨st, hst⟩ := intersectAll_stages hs
    exact ⟨(m, g, f1) :: st, .cons h1 hst⟩

theorem Follows.trans {m : Maps} {g : Log K} {f : Fr K} {st : List (Maps × Log K × Fr K)} {d d1 d2 : Dims} (h1 : Carried m d d1)
    (h2 : Follows st d1 d2) : Follows ((m, g, f) :: st) d d2 :=
  ⟨h2.pts.trans h1.pts, fun x => (h2.segs x).trans (h1.segs _), fun x => (h2.polys x).trans (h1.polys _)⟩

theorem follows_trans {m : Maps} {g : Log K} {f : Fr K} {st : List (Maps × Log K × Fr K)} : ∀ {l l1 l2 : List Dims},
    List.Forall₂ (Carried m) l l1 → List.Forall₂ (Follows st) l1 l2 → List.Forall₂ (Follows ((m, g, f) :: st)) l l2
  | _, _, _, .nil, .nil => .nil
  | _, _, _, .cons h1 t1, .cons h2 t2 => .cons (Follows.trans h1 h2) (follows_trans t1 t2)

theorem forall2_snoc {α β : Type} {R : α → β → Prop} : ∀ {l : List α} {a : α} {l' : List β}, List.Forall₂ R (l ++ [a]) l' →
    ∃ l1 b, l' = l1 ++ [b] ∧ List.Forall₂ R l l1 ∧ R a b
  | [], a, _, .cons h .nil => ⟨[], _, rfl, .nil, h⟩
  | x :: l, a, _, .cons h t => by
    obtain ⟨l1, b, rfl, h1, h2⟩ := forall2_snoc t
    exact ⟨_ :: l1, b, rfl, .cons h h1, h2⟩

/-- Every object of the decomposition is a value of the map when it was made. -/
def Onto (o : St K) (m : Maps) : Prop :=
  (∀ i ∈ o.pid.live, ∃ x, get m.other0 x = some i) ∧ (∀ i ∈ o.sid.live, ∃ x, get m.other1 x = some i) ∧
    ∀ i ∈ o.qid.live, ∃ x, get m.other2 x = some (some i)

theorem covers_get {d : Dict Id} (h : Dist d) {l : List Id} (hc : covers d l) : ∀ i ∈ l, ∃ x, get d x = some i := by
  intro i hi
  obtain ⟨⟨x, y⟩, h1, rfl⟩ := List.mem_map.1 (hc i hi)
  exact ⟨x, get_of_mem h h1⟩

theorem intersectAll_ok {c : Cfg K} {r : Range K} {tol : K} (hn : Nums c r tol) : ∀ {os : List (Fr K)} {ms ms' : List Dims} {f f' : Fr K}
    {st : List (Maps × Log K × Fr K)}, (∀ o ∈ os, Given r o.dec) → Ctx c r f → (∀ d ∈ ms, d.In f.dec) →
      intersectAll c tol os ms f = .ok (ms', f') → Stages c tol f os st → (∀ x ∈ st, Plain c x.2.1) →
      Ctx c r f' ∧ (∀ d ∈ ms', d.In f'.dec) ∧ (∃ old new, ms' = old ++ new ∧ List.Forall₂ (Follows st) ms old ∧ Composed st new) ∧
        List.Forall₂ (fun o x => Onto o.dec x.1) os st
  | [], ms, ms', f, f', st, _, hC, hd, hs, hst, hP => by
    cases hs
    cases hst
    refine ⟨hC, hd, ⟨ms, [], by simp, ?_, .nil⟩, .nil⟩
    have : ∀ l : List Dims, List.Forall₂ (Follows (K := K) []) l l := by
      intro l
      induction l with
      | nil => exact .nil
      | cons d l ih => exact .cons ⟨rfl, fun _ => rfl, fun _ => rfl⟩ ih
    exact this ms
  | o :: os, ms, ms', f, f', st, ho, hC, hd, hs, hst, hP => by
    rw [intersectAll] at hs
    simp only [bindOk, checkOk] at hs
    obtain ⟨⟨m, g, f1⟩, h1, ms1, h2, _, h3, _, h4, _, h5, hs⟩ := hs
    cases hst with
    | @cons _ f2 _ _ m2 g2 st h1' hst =>
    rw [h1] at h1'
    cases h1'
    obtain ⟨k1, _, d0, hM⟩ := intersectSingle_merged hn (ho o (by simp)) hC h1 (hP (m, g, f1) (by simp))
    obtain ⟨ds', e1, e2, e3⟩ := composeAll_ok hM hd
    rw [h2] at e1
    cases e1
    obtain ⟨iv, hL⟩ := hM.lift
    obtain ⟨opm, hp, _⟩ := hM.pts
    have hin : ∀ d ∈ ms1 ++ [(⟨m.other0, m.other1, known m.other2⟩ : Dims)], d.In f1.dec := by
      intro d hd
      rcases List.mem_append.1 hd with hd | hd
      · exact e3 d hd
      · rw [List.mem_singleton] at hd
        subst hd
        refine ⟨hM.keys.other1, known_dist hM.keys.other2, fun i v hv => (hp.live v i (hp.back i v hv)).1, hL.key3, fun i v hv => ?_⟩
        dsimp only at hv
        rw [get_known hM.keys.other2] at hv
        refine (hM.full i).1 fun hh => ?_
        rw [hh] at hv
        cases hv
    obtain ⟨t1, t2, ⟨old, new, rfl, t3, t4⟩, t5⟩ := intersectAll_ok hn (fun o ho' => ho o (by simp [ho'])) k1 hin hs hst
      fun x hx => hP x (by simp [hx])
    obtain ⟨l1, b, rfl, u1, u2⟩ := forall2_snoc t3
    refine ⟨t1, t2, ⟨l1, b :: new, by simp, follows_trans e2 u1, .cons u2.pts u2.segs (fun q => ?_) t4⟩, .cons ⟨?_, ?_, ?_⟩ t5⟩
    · rw [u2.polys, get_known hM.keys.other2]
    · exact covers_get hM.keys.other0 h3
    · exact covers_get hM.keys.other1 h4
    · intro i hi
      obtain ⟨x, hx⟩ := covers_get (known_dist hM.keys.other2) h5 i hi
      rw [get_known hM.keys.other2] at hx
      refine ⟨x, ?_⟩
      cases hg : get m.other2 x with
      | none => rw [hg] at hx; cases hx
      | some v => rw [hg] at hx; exact congrArg some hx

end
end Verif.Merge
