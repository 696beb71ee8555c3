import Verif.Merge.Fill
import Verif.Merge.Trail

/-! The result of the intersection of two decompositions. -/

namespace Verif.Merge
open Verif.Decomp (St Id HE flip upd sidePoly)
open Verif.Front (Fr Cfg Err Range Good Crosses bindOk liftD_ok key_ok checkOk needOk)

/-! ### Keys of the dictionaries are different -/

/-- No key is twice in a dictionary. -/
def Dist {β : Type} (d : Dict β) : Prop := (d.map Prod.fst).Nodup

theorem Dist.set {β : Type} {d : Dict β} (h : Dist d) (i : Id) (v : β) : Dist (set d i v) := (set_fst h).1

theorem Dist.setDefault {β : Type} {d : Dict β} (h : Dist d) (i : Id) (v : β) : Dist (setDefault d i v) := by
  unfold Merge.setDefault
  split
  · exact h
  · exact h.set i v

/-- No key is twice in the dictionaries of the maps. -/
structure Keys (m : Maps) : Prop where
  self1 : Dist m.self1
  self2 : Dist m.self2
  other0 : Dist m.other0
  other1 : Dist m.other1
  other2 : Dist m.other2

section
variable {K : Type} [Field K] [LinearOrder K]

theorem splitMap_keys {n : Nat} {q : Id} {f : Fr K} {m m' : Maps} (h : Keys m) (hs : splitMap n q f m = .ok m') : Keys m' := by
  unfold splitMap at hs
  split at hs
  · cases hs; exact h
  · split at hs
    · simp only [bindOk] at hs
      obtain ⟨k, _, k', _, _, _, hs⟩ := hs
      cases hs
      exact ⟨(h.self1.setDefault _ _).set _ _, h.self2, h.other0, h.other1, h.other2⟩
    · cases hs; exact h

theorem addPoints_keys {c : Cfg K} {o : St K} : ∀ {ps : List Id} {m m' : Maps} {opm opm' : Dict Id} {f f' : Fr K}, Keys m →
    addPoints c o ps m opm f = .ok (m', opm', f') → Keys m'
  | [], m, m', opm, opm', f, f', h, hs => by cases hs; exact h
  | p :: ps, m, m', opm, opm', f, f', h, hs => by
    rw [addPoints] at hs
    simp only [bindOk] at hs
    obtain ⟨⟨q, f1⟩, _, m1, h2, hs⟩ := hs
    have h1 := splitMap_keys h h2
    exact addPoints_keys (m := { m1 with other0 := set m1.other0 q p }) ⟨h1.self1, h1.self2, h1.other0.set _ _, h1.other1, h1.other2⟩ hs

theorem divMaps_keys : ∀ {l : List (Verif.Front.Div K)} {m m' : Maps}, Keys m → divMaps l m = .ok m' → Keys m'
  | [], m, m', h, hs => by cases hs; exact h
  | d :: ds, m, m', h, hs => by
    rw [divMaps] at hs
    simp only [bindOk] at hs
    obtain ⟨_, _, hs⟩ := hs
    exact divMaps_keys (m := { m with self1 := set m.self1 d.new (root m.self1 d.old) }) ⟨h.self1.set _ _, h.self2, h.other0, h.other1, h.other2⟩ hs

theorem changeMaps_keys {ch : Verif.Decomp.Change} {m m' : Maps} (h : Keys m) (hs : changeMaps ch m = .ok m') : Keys m' := by
  cases ch with
  | none => cases hs; exact h
  | shape x => cases hs; exact h
  | split q q' => cases hs; exact ⟨h.self1, h.self2.set _ _, h.other0, h.other1, h.other2.set _ _⟩
  | add q q' => cases hs; exact ⟨h.self1, h.self2.set _ _, h.other0, h.other1, h.other2.set _ _⟩
  | join q q' => cases hs
  | remove q q' => cases hs

theorem piece_keys {c : Cfg K} {o qr ql a b : Id} {f f' : Fr K} {m m' : Maps} {g g' : Log K} (h : Keys m)
    (hs : piece c o qr ql a b m g f = .ok (m', g', f')) : Keys m' := by
  unfold piece at hs
  simp only [bindOk] at hs
  obtain ⟨⟨e, f1⟩, h1, m1, h2, x, h3, y, h4, hs⟩ := hs
  simp only [Except.ok.injEq, Prod.mk.injEq] at hs
  obtain ⟨rfl, _, _⟩ := hs
  have h5 := changeMaps_keys (m := { m with other1 := set m.other1 e o }) ⟨h.self1, h.self2, h.other0, h.other1.set _ _, h.other2⟩ h2
  exact ⟨h5.self1, h5.self2, h5.other0, h5.other1, (h5.other2.set _ _).set _ _⟩

theorem pieces_keys {c : Cfg K} {o qr ql b : Id} : ∀ {l : List (Verif.Front.Div K)} {start : Id} {f f' : Fr K} {m m' : Maps} {g g' : Log K},
    Keys m → pieces c o qr ql b start l m g f = .ok (m', g', f') → Keys m'
  | [], start, f, f', m, m', g, g', h, hs => by
    rw [pieces] at hs
    split at hs
    · exact piece_keys h hs
    · cases hs; exact h
  | d :: ds, start, f, f', m, m', g, g', h, hs => by
    rw [pieces] at hs
    split at hs
    · exact pieces_keys h hs
    · split at hs
      · simp only [bindOk] at hs
        obtain ⟨⟨p, f1⟩, _, hs⟩ := hs
        exact pieces_keys h hs
      · simp only [bindOk] at hs
        obtain ⟨⟨m1, g1, f1⟩, h1, hs⟩ := hs
        exact pieces_keys (piece_keys h h1) hs

theorem addSegs_keys {c : Cfg K} {so : St K} {opm : Dict Id} : ∀ {es : List Id} {f f' : Fr K} {m m' : Maps} {g g' : Log K},
    Keys m → addSegs c so opm es m g f = .ok (m', g', f') → Keys m'
  | [], f, f', m, m', g, g', h, hs => by cases hs; exact h
  | e :: es, f, f', m, m', g, g', h, hs => by
    rw [addSegs] at hs
    simp only [bindOk] at hs
    obtain ⟨a, _, _, _, b, _, _, _, hs⟩ := hs
    split at hs
    · exact addSegs_keys h hs
    · simp only [bindOk] at hs
      obtain ⟨qr, _, ql, _, ⟨l, f1⟩, _, m1, h1, ⟨m2, g2, f2⟩, h2, hs⟩ := hs
      exact addSegs_keys (pieces_keys (divMaps_keys h h1) h2) hs

end

section
variable {K : Type} [Field K] [LinearOrder K] [IsStrictOrderedRing K]

/-- What is assumed of the numbers of an intersection. -/
structure Nums (c : Cfg K) (r : Range K) (tol : K) : Prop where
  ok : r.Ok
  eps : 0 ≤ c.eps
  tol : r.m ≤ tol ∧ tol ≤ r.T

/-- What is assumed of the points of the other decomposition. -/
structure Given (r : Range K) (so : St K) : Prop where
  nodup : so.pid.live.Nodup
  snodup : so.sid.live.Nodup
  bounded : ∀ p ∈ so.pid.live, Verif.Front.Bounded r.C (so.xy p)

/-- The result of `intersect_single`. The dictionary `d` has the values of polygons before the search. -/
structure Merged (tol : K) (s0 so : St K) (f' : Fr K) (m : Maps) (g : Log K) (d : Dict (Option Id)) : Prop where
  keys : Keys m
  lift : ∃ iv, Lift s0 f'.dec m.self1 m.self2 m.other1 iv
  mark : Mark so f'.dec m.other1 d g.pieces
  pts : ∃ opm, Pts so f'.dec so.pid.live m.other0 opm ∧ ∀ o ∈ so.sid.live, ∃ a b, get opm (so.vtx (o, false)) = some a ∧
    get opm (so.vtx (o, true)) = some b ∧ Trail f'.dec tol a (segsOf o g.pieces) b
  full : ∀ q, get m.other2 q ≠ none ↔ q ∈ f'.dec.qid.live
  ext : ∀ q p, get d q = some (some p) → get m.other2 q = some (some p)
  from_ : ∀ q p, get m.other2 q = some (some p) → ∃ q0, get d q0 = some (some p) ∧
    Relation.ReflTransGen (fun x y => Across f'.dec x y ∧ ∀ p', get d y ≠ some (some p')) q0 q
  closed : ∀ x y p, get m.other2 x = some (some p) → Across f'.dec x y → ∃ p', get m.other2 y = some (some p')

/-- Points of the result remain the images. -/
theorem Pts.mono {so s s' : St K} {ps : List Id} {d opm : Dict Id} (h : Pts so s ps d opm) (hp : ∀ i ∈ s.pid.live, i ∈ s'.pid.live) :
    Pts so s' ps d opm :=
  ⟨h.dom, fun p q hq => ⟨hp q (h.live p q hq).1, (h.live p q hq).2⟩, h.back⟩

theorem fillMap_dist {s : St K} {m d : Dict (Option Id)} (h : Dist m) (hs : fillMap s m = .ok d) : Dist d := by
  have hspread : ∀ {p : Id} {n : Nat} {st : List Id} {m d : Dict (Option Id)}, Dist m → spread s p n st m = .ok d → Dist d := by
    intro p n
    induction n with
    | zero =>
      intro st m d hm hs
      cases st with
      | nil => unfold spread at hs; cases hs; exact hm
      | cons q st => cases hs
    | succ n ih =>
      intro st m d hm hs
      cases st with
      | nil => unfold spread at hs; cases hs; exact hm
      | cons q st =>
        rw [spread] at hs
        simp only [bindOk] at hs
        obtain ⟨_, _, l, _, x, _, hs⟩ := hs
        exact ih (hm.set _ _) hs
  have hall : ∀ {xs m d : Dict (Option Id)}, Dist m → spreadAll s xs m = .ok d → Dist d := by
    intro xs
    induction xs with
    | nil => intro m d hm hs; cases hs; exact hm
    | cons x xs ih =>
      obtain ⟨q, v⟩ := x
      intro m d hm hs
      cases v with
      | none => rw [spreadAll] at hs; exact ih hm hs
      | some p =>
        rw [spreadAll] at hs
        simp only [bindOk] at hs
        obtain ⟨m1, h1, hs⟩ := hs
        exact ih (hspread hm h1) hs
  exact hall (foldl_fst h) hs

theorem intersectSingle_merged {c : Cfg K} {r : Range K} {tol : K} (hn : Nums c r tol) {so : St K} (hso : Given r so) {f f' : Fr K}
    (h : Ctx c r f) {m : Maps} {g : Log K} (hs : intersectSingle c tol so f = .ok (m, g, f')) (hP : Plain c g) :
    Ctx c r f' ∧ f'.tol = f.tol ∧ ∃ d, Merged tol f.dec so f' m g d := by
  unfold intersectSingle at hs
  simp only [bindOk] at hs
  obtain ⟨⟨m1, opm, f1⟩, h1, ⟨m2, g2, f2⟩, h2, d, h3, hs⟩ := hs
  simp only [Except.ok.injEq, Prod.mk.injEq] at hs
  obtain ⟨rfl, rfl, rfl⟩ := hs
  dsimp only at h1 h2 h3
  have hft : r.m ≤ f.tol ∧ f.tol ≤ r.T := by
    obtain ⟨po, so, hM⟩ := h.good.mirror
    exact hM.tol
  obtain ⟨a1, a2, a3, a4, a5, a6⟩ := addPoints_all hn.ok hso.bounded (s0 := f.dec) (done := []) (fun p hp => hp) (by simpa using hso.nodup)
    (h.tol hn.tol) (m := ⟨[], [], [], [], []⟩) rfl rfl ⟨⟨_, Lift.start⟩, Mark.start⟩
    ⟨by simp [get], by simp [get], by simp [get]⟩ h1
  rw [List.nil_append] at a6
  obtain ⟨b1, b2, b3, b4, b5⟩ := addSegs_all hn.ok hn.eps (fun e he => he) a1 (g := ⟨[], [], []⟩) a5 h2 hP
  obtain ⟨_, ps, t1, _, t2⟩ := addSegs_trail hn.ok hn.eps (fun e he => he) hso.snodup a1 (g := ⟨[], [], []⟩) a5 h2 hP
  dsimp only at t1
  rw [List.nil_append] at t1
  have hk1 : Keys m1 := addPoints_keys (m := ⟨[], [], [], [], []⟩) (by constructor <;> exact List.nodup_nil) h1
  have hk2 : Keys m2 := addSegs_keys hk1 h2
  obtain ⟨d', c1, c2, c3, c4, c5⟩ := fillMap_ok b1.keep hk2.other2 b3.mark.key2
  rw [h3] at c1
  cases c1
  refine ⟨b1.tol hft, rfl, m2.other2, ⟨hk2.self1, hk2.self2, hk2.other0, hk2.other1, fillMap_dist hk2.other2 h3⟩, b3.lift, b3.mark,
    ⟨opm, ?_, fun o ho => by rw [t1]; rw [a2] at t2; exact t2 o ho⟩, c2, c3, c4, c5⟩
  have := a6.mono (s' := f2.dec) fun i hi => (b5 i hi).1
  dsimp only
  rw [b4]
  exact this

end
end Verif.Merge
