import Verif.Front.Trace
import Verif.Decomp.Short
import Verif.Undo.Rel

/-! The methods of the frontend marked `undoable` with their undo code, on the stack of undo.py. -/

namespace Verif.Front
open Verif.Decomp (St Id HE Geom Alike Fine AngleOk Apart Bare Between NewDir)
open Verif.Plane (parametric)
open Verif.Undo (Gen World Stack Good GoodAll)

section
variable {K : Type} [Field K] [LinearOrder K]

/-- `_join_segments` (polygons.py:674-681). Only the undo code of `_split_segment` calls it. -/
def joinSegs (mid e0 e1 : Id) (f : Fr K) : Except Err (Fr K) := do
  key f.dec.pid mid
  key f.dec.sid e0
  key f.dec.sid e1
  let sl ← liftB (f.sl.rm e1)
  let d ← liftD (Verif.Decomp.joinSegments mid e0 e1 f.dec)
  .ok { f with dec := d, sl := sl }

/-- A call of a method marked `undoable` (polygons.py:625-701). -/
inductive Prm (K : Type) where
  | addPt (xy : K × K) (q : Id)
  | addSeg (a b : Id)
  | rmPt (p : Id)
  | rmSeg (e : Id)
  | split (e mid : Id)
  | attr (e : Id) (b : Option Bool)

/-- The part before `yield` with the part after it (polygons.py:625-701). The removed point and the removed segment keep their
attributes `xy`, `poly` and `vtxs` (decomp.py:171-175, 566-573), so the undo code has their values at the removal. -/
def Prm.act (c : Cfg K) : Prm K → Fr K → Except Err (Fr K × (Fr K → Except Err (Fr K)))
  | .addPt xy q, f => do
    let r ← Front.addPt xy q f
    .ok (r.2, Front.rmPt r.1)
  | .addSeg a b, f => do
    let r ← addSegment c a b f
    .ok (r.2, rmSegment c r.1)
  | .rmPt p, f => do
    let f' ← Front.rmPt p f
    .ok (f', fun g => do
      let q ← need .attributeError (f.dec.ppoly p)
      let r ← Front.addPt (f.dec.xy p) q g
      .ok r.2)
  | .rmSeg e, f => do
    let f' ← rmSegment c e f
    .ok (f', fun g => do
      let r ← addSegment c (f.dec.vtx (e, false)) (f.dec.vtx (e, true)) g
      .ok r.2)
  | .split e mid, f => do
    let r ← splitSegment e mid f
    .ok (r.2, joinSegs mid e r.1)
  | .attr e b, f => do
    let f' ← setAttr e b f
    .ok (f', setAttr e (f.bnd e))

/-- The text of the `yield`. -/
def Prm.text : Prm K → String
  | .addPt _ _ => "Add point"
  | .addSeg _ _ => "Add segment"
  | .rmPt _ => "Remove point"
  | .rmSeg _ => "Remove segment"
  | .split _ _ => "Split segment"
  | .attr _ _ => "Set attr"

/-- Undo code as the rest of a generator. The document left by an exception is not modelled, it is the one before. -/
def rest (v : Fr K → Except Err (Fr K)) (g : Fr K) : Fr K × Option Err :=
  match v g with
  | .ok g' => (g', none)
  | .error e => (g, some e)

/-- The generator of a method marked `undoable` (polygons.py:625-701) for undo.py. The calls of other such methods in the undo
code are recorded in a list that is thrown away (undo.py:270-275). The document left by an exception is not modelled, it is
the one before. -/
def Prm.gen (c : Cfg K) (p : Prm K) : Gen (Fr K) Err where
  run f := match p.act c f with
    | .ok (f', v) => (f', .ok (p.text, rest v))
    | .error e => (f, .error e)

/-- The call adds a segment between points that are not connected and in new directions, or splits a segment at a point between
its ends that has no segments; the other calls have no condition. -/
def Prm.Ok (c : Cfg K) (f : Fr K) : Prm K → Prop
  | .addSeg a b => a ∈ f.dec.pid.live ∧ b ∈ f.dec.pid.live ∧ Apart f.dec a b ∧ NewDir c.geo f.dec a b ∧ NewDir c.geo f.dec b a
  | .split e mid => e ∈ f.dec.sid.live ∧ mid ∈ f.dec.pid.live ∧ Bare f.dec mid ∧
      Between (f.dec.xy (f.dec.vtx (e, false))) (f.dec.xy mid) (f.dec.xy (f.dec.vtx (e, true)))
  | _ => True

/-- Calls one after another with their conditions. -/
inductive Trail (c : Cfg K) : Fr K → List (Prm K) → Fr K → Prop where
  | nil {f : Fr K} : Trail c f [] f
  | cons {f f1 f2 : Fr K} {p : Prm K} {ps : List (Prm K)} {v : Fr K → Except Err (Fr K)} (ok : p.Ok c f)
      (h : p.act c f = .ok (f1, v)) (hs : Trail c f1 ps f2) : Trail c f (p :: ps) f2

end

section
variable {K : Type} [Field K] [LinearOrder K] [IsStrictOrderedRing K] {c : Cfg K}

/-- What the calls keep. -/
abbrev Inv' (c : Cfg K) (f : Fr K) : Prop := Fine c.geo f.dec
/-- Same points, coordinates, segments and ends. -/
abbrev Rel' (f g : Fr K) : Prop := Alike f.dec g.dec

/-- What undo restores: points, coordinates, segments, ends, links, and the ids of points and segments to come. -/
structure Like (f g : Fr K) : Prop where
  same : Alike f.dec g.dec
  next : ∀ d : HE, d.1 ∈ f.dec.sid.live → f.dec.next d = g.dec.next d

omit [Field K] [LinearOrder K] [IsStrictOrderedRing K] in
theorem like_equiv : Equivalence (Like : Fr K → Fr K → Prop) where
  refl f := ⟨Alike.refl f.dec, fun _ _ => rfl⟩
  symm h := ⟨h.same.symm, fun d hd => (h.next d ((h.same.sids.mem _).2 hd)).symm⟩
  trans h h' := ⟨h.same.trans h'.same, fun d hd => (h.next d hd).trans (h'.next d ((h.same.sids.mem _).1 hd))⟩

theorem like_of {f g : Fr K} (hf : Inv' c f) (hg : Inv' c g) (h : Rel' f g) : Like f g :=
  ⟨h, fun _ hd => h.next hf.inv hg.inv hf.fan hg.fan hd⟩

theorem Prm.Ok.congr {p : Prm K} {f g : Fr K} (h : p.Ok c f) (hf : Inv' c f) (hR : Rel' f g) : p.Ok c g := by
  cases p with
  | addSeg a b =>
    obtain ⟨ha, hb, h1, h2, h3⟩ := h
    exact ⟨(hR.pids.mem a).1 ha, (hR.pids.mem b).1 hb, hR.apart h1, hR.newDir hf.inv ha hb h2, hR.newDir hf.inv hb ha h3⟩
  | split e mid =>
    obtain ⟨he, hm, h1, h2⟩ := h
    refine ⟨(hR.sids.mem e).1 he, (hR.pids.mem mid).1 hm, hR.bare h1, ?_⟩
    rw [← hR.vtx (e, false) he, ← hR.vtx (e, true) he, ← hR.xy mid hm,
      ← hR.xy _ (hf.inv.links.vlive (e, false) he), ← hR.xy _ (hf.inv.links.vlive (e, true) he)]
    exact h2
  | _ => trivial

omit [IsStrictOrderedRing K] in
theorem addPt_dec {xy : K × K} {q p : Id} {f f' : Fr K} (h : Front.addPt xy q f = .ok (p, f')) :
    p = (Verif.Decomp.addFreePoint xy q f.dec).1 ∧ f'.dec = (Verif.Decomp.addFreePoint xy q f.dec).2 ∧ f'.tol = f.tol := by
  simp only [Front.addPt, bindOk] at h
  obtain ⟨_, _, b, _, h⟩ := h
  cases h
  exact ⟨rfl, rfl, rfl⟩

omit [IsStrictOrderedRing K] in
theorem rmPt_dec {p : Id} {f f' : Fr K} (h : Front.rmPt p f = .ok f') :
    Verif.Decomp.removeFreePoint p f.dec = .ok f'.dec := by
  simp only [Front.rmPt, bindOk, liftD_ok, liftB_ok] at h
  obtain ⟨_, _, pl, _, d, h1, h⟩ := h
  cases h
  exact h1

omit [IsStrictOrderedRing K] in
theorem addSegment_dec {a b e : Id} {f f' : Fr K} (h : addSegment c a b f = .ok (e, f')) :
    a ∈ f.dec.pid.live ∧ b ∈ f.dec.pid.live ∧ Verif.Decomp.newSegment c.geo a b f.dec = .ok (e, f'.dec) := by
  simp only [addSegment, bindOk, liftD_ok, key_ok] at h
  obtain ⟨_, ha, _, hb, r, h1, x, _, h⟩ := h
  cases h
  exact ⟨ha, hb, h1⟩

omit [IsStrictOrderedRing K] in
theorem rmSegment_dec {e : Id} {f f' : Fr K} (h : rmSegment c e f = .ok f') :
    e ∈ f.dec.sid.live ∧ Verif.Decomp.deleteSegment c.geo e f.dec = .ok f'.dec := by
  simp only [rmSegment, bindOk, liftD_ok, liftB_ok, key_ok] at h
  obtain ⟨_, he, sl, _, d, h1, h⟩ := h
  cases h
  exact ⟨he, h1⟩

omit [IsStrictOrderedRing K] in
theorem splitSegment_dec {e mid n : Id} {f f' : Fr K} (h : splitSegment e mid f = .ok (n, f')) :
    e ∈ f.dec.sid.live ∧ mid ∈ f.dec.pid.live ∧ Verif.Decomp.splitSegment e mid f.dec = .ok (n, f'.dec) := by
  simp only [splitSegment, bindOk, liftD_ok, key_ok] at h
  obtain ⟨_, he, _, hm, r, h2, x, _, h⟩ := h
  cases h
  exact ⟨he, hm, h2⟩

omit [IsStrictOrderedRing K] in
theorem joinSegs_dec {e0 e1 mid : Id} {f f' : Fr K} (h : joinSegs mid e0 e1 f = .ok f') :
    Verif.Decomp.joinSegments mid e0 e1 f.dec = .ok f'.dec := by
  simp only [joinSegs, bindOk, liftD_ok, liftB_ok] at h
  obtain ⟨_, _, _, _, _, _, sl, _, d, h1, h⟩ := h
  cases h
  exact h1

omit [IsStrictOrderedRing K] in
theorem setAttr_dec {e : Id} {b : Option Bool} {f f' : Fr K} (h : setAttr e b f = .ok f') : f'.dec = f.dec := by
  simp only [setAttr, bindOk] at h
  obtain ⟨_, _, h⟩ := h
  cases h
  rfl

/-- The same call in two documents with the same points and segments. -/
theorem Prm.act_both (hg : AngleOk c.geo) {p : Prm K} {f g f' g' : Fr K} {v w : Fr K → Except Err (Fr K)} (hf : Inv' c f)
    (hg' : Inv' c g) (hR : Rel' f g) (ok : p.Ok c f) (h1 : p.act c f = .ok (f', v)) (h2 : p.act c g = .ok (g', w)) :
    Inv' c f' ∧ Rel' f' g' := by
  have ok' := ok.congr hf hR
  cases p with
  | addPt xy q =>
    simp only [Prm.act, bindOk] at h1 h2
    obtain ⟨⟨p, f1⟩, h1, k1⟩ := h1
    obtain ⟨⟨p', g1⟩, h2, k2⟩ := h2
    cases k1
    cases k2
    obtain ⟨_, e1, _⟩ := addPt_dec h1
    obtain ⟨_, e2, _⟩ := addPt_dec h2
    dsimp only
    rw [Inv', Rel', e1, e2]
    exact ⟨Verif.Decomp.addFreePoint_fine hg hf xy q, (hR.addPt hf.inv.pids hg'.inv.pids xy q q).2⟩
  | addSeg a b =>
    simp only [Prm.act, bindOk] at h1 h2
    obtain ⟨⟨e, f1⟩, h1, k1⟩ := h1
    obtain ⟨⟨e', g1⟩, h2, k2⟩ := h2
    cases k1
    cases k2
    obtain ⟨ha, hb, e1⟩ := addSegment_dec h1
    obtain ⟨ha', hb', e2⟩ := addSegment_dec h2
    obtain ⟨r1, r2⟩ := Verif.Decomp.newSegment_fine hg hf ha hb ok.2.2.1 ok.2.2.2.1 ok.2.2.2.2 e1
    obtain ⟨_, r4⟩ := Verif.Decomp.newSegment_fine hg hg' ha' hb' ok'.2.2.1 ok'.2.2.2.1 ok'.2.2.2.2 e2
    exact ⟨r1, (hR.addSeg hf.inv.links.sids hg'.inv.links.sids r2 r4).2⟩
  | rmPt p =>
    simp only [Prm.act, bindOk] at h1 h2
    obtain ⟨f1, h1, k1⟩ := h1
    obtain ⟨g1, h2, k2⟩ := h2
    cases k1
    cases k2
    exact ⟨Verif.Decomp.removeFreePoint_fine hg hf (rmPt_dec h1), hR.rmPt hf.inv.pids hg'.inv.pids (rmPt_dec h1) (rmPt_dec h2)⟩
  | rmSeg e =>
    simp only [Prm.act, bindOk] at h1 h2
    obtain ⟨f1, h1, k1⟩ := h1
    obtain ⟨g1, h2, k2⟩ := h2
    cases k1
    cases k2
    obtain ⟨he, e1⟩ := rmSegment_dec h1
    obtain ⟨he', e2⟩ := rmSegment_dec h2
    obtain ⟨r1, r2⟩ := Verif.Decomp.deleteSegment_fine hf he e1
    exact ⟨r1, hR.delSeg hf.inv.links.sids hg'.inv.links.sids r2 (Verif.Decomp.deleteSegment_fine hg' he' e2).2⟩
  | split e mid =>
    simp only [Prm.act, bindOk] at h1 h2
    obtain ⟨⟨n, f1⟩, h1, k1⟩ := h1
    obtain ⟨⟨n', g1⟩, h2, k2⟩ := h2
    cases k1
    cases k2
    obtain ⟨he, hm, e1⟩ := splitSegment_dec h1
    obtain ⟨he', hm', e2⟩ := splitSegment_dec h2
    obtain ⟨r1, r2⟩ := Verif.Decomp.splitSegment_fine hg hf he hm ok.2.2.1 ok.2.2.2 e1
    obtain ⟨_, r4⟩ := Verif.Decomp.splitSegment_fine hg hg' he' hm' ok'.2.2.1 ok'.2.2.2 e2
    exact ⟨r1, (hR.splitSeg hf.inv.links.sids hg'.inv.links.sids r2 r4).2⟩
  | attr e b =>
    simp only [Prm.act, bindOk] at h1 h2
    obtain ⟨f1, h1, k1⟩ := h1
    obtain ⟨g1, h2, k2⟩ := h2
    cases k1
    cases k2
    rw [Inv', Rel', setAttr_dec h1, setAttr_dec h2]
    exact ⟨hf, hR⟩

/-- The undo code of a call in a document with the same points and segments as after the call. -/
theorem Prm.act_back (hg : AngleOk c.geo) {p : Prm K} {f f' g g' : Fr K} {v : Fr K → Except Err (Fr K)} (hf : Inv' c f)
    (ok : p.Ok c f) (h1 : p.act c f = .ok (f', v)) (hg' : Inv' c g) (hR : Rel' g f') (h2 : v g = .ok g') :
    Inv' c g' ∧ Rel' g' f := by
  cases p with
  | addPt xy q =>
    simp only [Prm.act, bindOk] at h1
    obtain ⟨⟨p, f1⟩, h1, k1⟩ := h1
    cases k1
    obtain ⟨e0, e1, _⟩ := addPt_dec h1
    rw [Rel', e1] at hR
    have h3 := rmPt_dec h2
    rw [e0] at h3
    exact ⟨Verif.Decomp.removeFreePoint_fine hg hg' h3, hR.add_rm hf.inv.pids hg'.inv.pids h3⟩
  | addSeg a b =>
    simp only [Prm.act, bindOk] at h1
    obtain ⟨⟨e, f1⟩, h1, k1⟩ := h1
    cases k1
    obtain ⟨ha, hb, e1⟩ := addSegment_dec h1
    obtain ⟨_, r2⟩ := Verif.Decomp.newSegment_fine hg hf ha hb ok.2.2.1 ok.2.2.2.1 ok.2.2.2.2 e1
    obtain ⟨he, h3⟩ := rmSegment_dec h2
    obtain ⟨r3, r4⟩ := Verif.Decomp.deleteSegment_fine hg' he h3
    exact ⟨r3, .add_del r2 hR hf.inv.links.sids hg'.inv.links.sids r4⟩
  | rmPt p =>
    simp only [Prm.act, bindOk] at h1
    obtain ⟨f1, h1, k1⟩ := h1
    cases k1
    simp only [bindOk] at h2
    obtain ⟨q, _, ⟨p', g1⟩, h3, h2⟩ := h2
    cases h2
    obtain ⟨_, e1, _⟩ := addPt_dec h3
    have := Verif.Decomp.Alike.rm_add (q := q) (rmPt_dec h1) hR hf.inv.pids hg'.inv.pids
    dsimp only
    rw [Inv', Rel', e1]
    exact ⟨Verif.Decomp.addFreePoint_fine hg hg' _ _, this.2⟩
  | rmSeg e =>
    simp only [Prm.act, bindOk] at h1
    obtain ⟨f1, h1, k1⟩ := h1
    cases k1
    simp only [bindOk] at h2
    obtain ⟨⟨e', g1⟩, h3, h2⟩ := h2
    cases h2
    obtain ⟨he, h4⟩ := rmSegment_dec h1
    obtain ⟨ha, hb, h5⟩ := addSegment_dec h3
    obtain ⟨r1, r2⟩ := Verif.Decomp.deleteSegment_fine hf he h4
    have hR' := hR.symm
    have hlive : ∀ d : HE, d.1 ∈ f'.dec.sid.live → d.1 ≠ e ∧ d.1 ∈ f.dec.sid.live := fun d hd => (r2.live _).1 hd
    have hdir : ∀ d : HE, Verif.Decomp.dirAng c.geo f'.dec d = Verif.Decomp.dirAng c.geo f.dec d := by
      intro d
      unfold Verif.Decomp.dirAng
      rw [Verif.Decomp.diff_eq r2.xy, r2.vtx]
    have hap : Apart f'.dec (f.dec.vtx (e, false)) (f.dec.vtx (e, true)) := by
      intro d hd hh
      obtain ⟨k1, k2⟩ := hlive d hd
      rw [r2.vtx] at hh
      refine k1 (hf.inv.tab.unique (e := d.1) (e' := e) k2 he (u := d.2) (v := false) hh.1 ?_)
      exact hh.2
    have hnew : ∀ v : Bool, NewDir c.geo f'.dec (f.dec.vtx (e, v)) (f.dec.vtx (e, !v)) := by
      intro v d hd hv hh
      obtain ⟨k1, k2⟩ := hlive d hd
      rw [r2.vtx] at hv
      rw [hdir, Verif.Decomp.diff_eq r2.xy] at hh
      exact k1 (congrArg Prod.fst (hf.fan.inj d (e, v) k2 he hv hh))
    have ha' : f.dec.vtx (e, false) ∈ f'.dec.pid.live := (hR.pids.mem _).1 ha
    have hb' : f.dec.vtx (e, true) ∈ f'.dec.pid.live := (hR.pids.mem _).1 hb
    obtain ⟨r3, r4⟩ := Verif.Decomp.newSegment_fine hg hg' ha hb (hR'.apart hap) (hR'.newDir r1.inv ha' hb' (hnew false))
      (hR'.newDir r1.inv hb' ha' (hnew true)) h5
    exact ⟨r3, (Verif.Decomp.Alike.del_add r2 hR hf.inv.links.sids hg'.inv.links.sids r4).2⟩
  | split e mid =>
    simp only [Prm.act, bindOk] at h1
    obtain ⟨⟨n, f1⟩, h1, k1⟩ := h1
    cases k1
    obtain ⟨he, hm, e1⟩ := splitSegment_dec h1
    obtain ⟨_, r2⟩ := Verif.Decomp.splitSegment_fine hg hf he hm ok.2.2.1 ok.2.2.2 e1
    obtain ⟨r3, x, y, hx, hy, hxm, r4⟩ := Verif.Decomp.joinSegments_fine hg hg' (hR.symm.joinable (r2.joinable hf.inv))
      (r2.proper hg'.inv hR hm ok.2.2.2) (joinSegs_dec h2)
    exact ⟨r3, .split_join r2 hR hf.inv.links.sids hg'.inv.links.sids hx hy hxm r4⟩
  | attr e b =>
    simp only [Prm.act, bindOk] at h1
    obtain ⟨f1, h1, k1⟩ := h1
    cases k1
    rw [Rel', setAttr_dec h1] at hR
    rw [Inv', Rel', setAttr_dec h2]
    exact ⟨hg', hR⟩

omit [IsStrictOrderedRing K] in
theorem Prm.gen_run {p : Prm K} {f f' : Fr K} {t : String} {u : Fr K → Fr K × Option Err}
    (h : (p.gen c).run f = (f', .ok (t, u))) : ∃ v, p.act c f = .ok (f', v) ∧ u = rest v := by
  simp only [Prm.gen] at h
  split at h
  · next f1 v h1 =>
    simp only [Prod.mk.injEq, Except.ok.injEq] at h
    obtain ⟨rfl, _, rfl⟩ := h
    exact ⟨v, h1, rfl⟩
  · next e h1 => simp at h

omit [Field K] [LinearOrder K] [IsStrictOrderedRing K] in
theorem rest_none {v : Fr K → Except Err (Fr K)} {g g' : Fr K} (h : rest v g = (g', none)) : v g = .ok g' := by
  unfold rest at h
  split at h
  · next g1 h1 =>
    simp only [Prod.mk.injEq, and_true] at h
    exact h ▸ h1
  · simp at h

/-- Calls with their conditions have correct undo code for points, coordinates, segments, ends and links. -/
theorem Prm.good (hg : AngleOk c.geo) {p : Prm K} {f : Fr K} (ok : p.Ok c f) : Good (Inv' c) Like (p.gen c) f := by
  intro hf f' t u h
  obtain ⟨v, h1, _⟩ := Prm.gen_run h
  have hf' := (Prm.act_both hg hf hf (Alike.refl _) ok h1 h1).1
  intro d1 d2 t1 u1 hI hR h2
  obtain ⟨w, h3, rfl⟩ := Prm.gen_run h2
  have hS := hR.same
  have ok' := ok.congr hf hS.symm
  obtain ⟨k1, k2⟩ := Prm.act_both hg hI hf hS ok' h3 h1
  refine ⟨k1, like_of k1 hf' k2, fun d3 d4 hI3 hR3 h4 => ?_⟩
  obtain ⟨j1, j2⟩ := Prm.act_back hg hI ok' h3 hI3 (hR3.same.trans k2.symm) (rest_none h4)
  exact ⟨j1, like_of j1 hf (j2.trans hS)⟩

/-! ### Programs -/

/-- What a program does with the frontend and the stack. -/
inductive Act (K : Type) where
  | call (p : Prm K)
  | group (fmt : Nat → String) (ps : List (Prm K))
  | undo
  | redo
  | clear
  | savepoint

/-- The operation of undo.py. -/
def Act.op (c : Cfg K) : Act K → Verif.Undo.Op (Fr K) Err
  | .call p => .call (p.gen c)
  | .group fmt ps => .group fmt (ps.map (Prm.gen c))
  | .undo => .undo
  | .redo => .redo
  | .clear => .clear
  | .savepoint => .savepoint

/-- The conditions of calls one after another. -/
def Oks (c : Cfg K) : List (Prm K) → Fr K → Prop
  | [], _ => True
  | p :: ps, f => p.Ok c f ∧ ∀ f' v, p.act c f = .ok (f', v) → Oks c ps f'

/-- The conditions of the calls. -/
def Act.Ok (c : Cfg K) (f : Fr K) : Act K → Prop
  | .call p => p.Ok c f
  | .group _ ps => Oks c ps f
  | _ => True

/-- A program without exceptions, with the list of documents. -/
inductive Acts (c : Cfg K) : World (Fr K) Err → Verif.Undo.Docs (Fr K) → List (Act K) → World (Fr K) Err →
    Verif.Undo.Docs (Fr K) → Prop where
  | nil {w : World (Fr K) Err} {h : Verif.Undo.Docs (Fr K)} : Acts c w h [] w h
  | cons {w w1 w2 : World (Fr K) Err} {h h2 : Verif.Undo.Docs (Fr K)} {a : Act K} {as : List (Act K)} (ok : a.Ok c w.doc)
      (h1 : Verif.Undo.step w (a.op c) = (w1, none)) (hs : Acts c w1 (h.step w.doc w1.doc (a.op c)) as w2 h2) :
      Acts c w h (a :: as) w2 h2

theorem Oks.good (hg : AngleOk c.geo) {ps : List (Prm K)} : ∀ {f : Fr K}, Oks c ps f →
    GoodAll (Inv' c) Like (ps.map (Prm.gen c)) f := by
  induction ps with
  | nil => intro f _; trivial
  | cons p ps ih =>
    intro f h
    refine ⟨Prm.good hg h.1, fun d t u hr => ?_⟩
    obtain ⟨v, h1, _⟩ := Prm.gen_run hr
    exact ih (h.2 d v h1)

theorem Acts.steps (hg : AngleOk c.geo) {w w' : World (Fr K) Err} {h h' : Verif.Undo.Docs (Fr K)} {as : List (Act K)}
    (hs : Acts c w h as w' h') : Verif.Undo.Steps (Inv' c) Like w h (as.map (Act.op c)) w' h' := by
  induction hs with
  | nil => exact .nil
  | @cons w w1 w2 h h2 a as ok h1 _ ih =>
    refine .cons ?_ h1 ih
    cases a with
    | call p => exact Prm.good hg ok
    | group fmt ps => exact Oks.good hg ok
    | undo => trivial
    | redo => trivial
    | clear => trivial
    | savepoint => trivial

/-- **C153.** A program of calls of the methods marked `undoable`, groups, `undo` and `redo`, without exceptions, whose new segments
are between unconnected points and in new directions and whose splits are at points between the ends: at any time there are the
points, coordinates, segments, ends and links of the document that a list of documents gives, moved through by `undo` and `redo`,
and the next new points and segments get the ids that they would get there. -/
theorem frontend_undo (hg : AngleOk c.geo) {f : Fr K} (hf : Fine c.geo f.dec) {as : List (Act K)} {w : World (Fr K) Err}
    {h : Verif.Undo.Docs (Fr K)} (hs : Acts c ⟨f, Stack.init⟩ ⟨[], f, []⟩ as w h) :
    Fine c.geo w.doc.dec ∧ Like w.doc h.now ∧ w.stk.undocount = h.past.length ∧ w.stk.redos.length = h.future.length :=
  Verif.Undo.undo_docs (I := Inv' c) like_equiv hf (hs.steps hg)

omit [IsStrictOrderedRing K] in
/-- The undo code of `set_attr`, run in the state after the call, gives back the whole state, with the old attribute. -/
theorem attr_undo {e : Id} {b : Option Bool} {f f' : Fr K} {v : Fr K → Except Err (Fr K)}
    (h : (Prm.attr e b).act c f = .ok (f', v)) : v f' = .ok f := by
  simp only [Prm.act, setAttr, bindOk, key_ok] at h
  obtain ⟨f1, ⟨_, he, h1⟩, h⟩ := h
  cases h1
  cases h
  simp [setAttr, key, he, bind, Except.bind]

/-! ### Calls of the frontend -/

omit [IsStrictOrderedRing K] in
theorem Trail.append {f f1 f2 : Fr K} {ps qs : List (Prm K)} (h : Trail c f ps f1) (h' : Trail c f1 qs f2) :
    Trail c f (ps ++ qs) f2 := by
  induction h with
  | nil => exact h'
  | cons ok h _ ih => exact .cons ok h (ih h')

theorem Trail.fine (hg : AngleOk c.geo) {f f' : Fr K} {ps : List (Prm K)} (h : Trail c f ps f') (hf : Inv' c f) : Inv' c f' := by
  induction h with
  | nil => exact hf
  | cons ok h _ ih => exact ih (Prm.act_both hg hf hf (Alike.refl _) ok h h).1

omit [IsStrictOrderedRing K] in
theorem Trail.oks {f f' : Fr K} {ps : List (Prm K)} (h : Trail c f ps f') : Oks c ps f := by
  induction h with
  | nil => trivial
  | cons ok h _ ih =>
    refine ⟨ok, fun f1 v h1 => ?_⟩
    rw [h] at h1
    cases h1
    exact ih

omit [IsStrictOrderedRing K] in
theorem Trail.calls {f f' : Fr K} {ps : List (Prm K)} (h : Trail c f ps f') : ∀ {w : World (Fr K) Err}, w.doc = f →
    w.stk.recv = .undos → ∃ w', Verif.Undo.calls (ps.map (Prm.gen c)) w = (w', none) ∧ w'.doc = f' ∧
      w'.stk.undocount = w.stk.undocount + ps.length := by
  induction h with
  | nil => intro w hw _; exact ⟨w, rfl, hw, rfl⟩
  | @cons f f1 f2 p ps v ok h _ ih =>
    intro w hw hr
    have h1 : (p.gen c).run w.doc = (f1, .ok (p.text, rest v)) := by
      rw [hw]
      simp only [Prm.gen, h]
    have h2 : ∃ w1, Verif.Undo.call (p.gen c) w = (w1, none) ∧ w1.doc = f1 ∧ w1.stk.recv = .undos ∧
        w1.stk.undocount = w.stk.undocount + 1 := by
      refine ⟨_, by rw [Verif.Undo.call, Verif.Undo.Action.do, show (Verif.Undo.Action.new (p.gen c)).gen = p.gen c from rfl, h1],
        rfl, ?_, ?_⟩
      · simp [Stack.append, hr]
      · simp [Stack.append, hr, Stack.undocount]
    obtain ⟨w1, k1, k2, k3, k4⟩ := h2
    obtain ⟨w2, j1, j2, j3⟩ := ih k2 k3
    refine ⟨w2, ?_, j2, ?_⟩
    · rw [List.map_cons, Verif.Undo.calls, k1]
      exact j1
    · rw [j3, k4, List.length_cons]; omega

omit [IsStrictOrderedRing K] in
theorem addPt_trail {xy : K × K} {q p : Id} {f f' : Fr K} (h : Front.addPt xy q f = .ok (p, f')) : Trail c f [.addPt xy q] f' := by
  refine .cons (v := Front.rmPt p) trivial ?_ .nil
  simp only [Prm.act, h, bind, Except.bind]

theorem pointOnSegment_trail {e : Id} {t : K} {f f' : Fr K} {m : Id × Id} (hf : Inv' c f) (ht : 0 < f.tol)
    (h : pointOnSegment e t f = .ok (m, f')) : ∃ ps, ps.length ≤ 2 ∧ Trail c f ps f' := by
  unfold pointOnSegment at h
  dsimp only at h
  split at h
  · cases h; exact ⟨[], by simp, .nil⟩
  split at h
  · cases h; exact ⟨[], by simp, .nil⟩
  next h0 h1 =>
  simp only [bindOk] at h
  obtain ⟨⟨mid, f1⟩, ha, ⟨n, f2⟩, hs, h⟩ := h
  cases h
  refine ⟨[.addPt _ 0] ++ [.split e mid], by simp, (addPt_trail ha).append (.cons (v := joinSegs mid e n) ?_ ?_ .nil)⟩
  swap
  · simp only [Prm.act, hs, bind, Except.bind]
  obtain ⟨he, hm, _⟩ := splitSegment_dec hs
  obtain ⟨e1, e2, _⟩ := addPt_dec ha
  have hnew : mid ∉ f.dec.pid.live := e1 ▸ (Verif.Decomp.Ids.append_ok hf.inv.pids).1
  have he' : e ∈ f.dec.sid.live := by rw [e2] at he; exact he
  have hvtx : f1.dec.vtx = f.dec.vtx := by rw [e2]; rfl
  have hxy : ∀ p, f1.dec.xy p = if p = mid then parametric (f.dec.xy (f.dec.vtx (e, false))) (f.dec.vec e) t else f.dec.xy p := by
    intro p
    rw [e2]
    simp only [Verif.Decomp.addFreePoint, Verif.Decomp.upd, Function.update_apply]
    rw [e1]
    rfl
  have hne : ∀ v, f.dec.vtx (e, v) ≠ mid := fun v hh => hnew (hh ▸ hf.inv.links.vlive (e, v) he')
  refine ⟨he, hm, fun d hd hh => ?_, ?_⟩
  · rw [hvtx] at hh
    have hd : d.1 ∈ f.dec.sid.live := by rw [e2] at hd; exact hd
    exact hnew (hh ▸ hf.inv.links.vlive d hd)
  · rw [hvtx, hxy, hxy, hxy, if_neg (hne false), if_neg (hne true), if_pos rfl]
    obtain ⟨r, r0, r1, hr⟩ := hf.short e he'
    have p0 : 0 < t := by
      by_contra hh
      exact h0 (by rw [scaledLt, if_pos ht]; exact Or.inl (not_lt.1 hh))
    have p1 : t < 1 := by
      by_contra hh
      exact h1 (by rw [scaledLt, if_pos ht]; exact Or.inl (by linarith))
    refine ⟨t * r, mul_pos p0 r0, ?_, ?_⟩
    · calc t * r ≤ t * 1 := mul_le_mul_of_nonneg_left r1 p0.le
        _ < 1 := by rw [mul_one]; exact p1
    · rw [hr]
      simp only [parametric, Verif.Decomp.diff]
      ext <;> dsimp only <;> ring

theorem addPoint_trail {x : K × K} {p : Id} {f f' : Fr K} (hf : Inv' c f) (ht : 0 < f.tol) (h : addPoint c x f = .ok (p, f')) :
    ∃ ps, ps.length ≤ 2 ∧ Trail c f ps f' := by
  unfold addPoint at h
  simp only [bindOk] at h
  obtain ⟨r, _, h⟩ := h
  cases r with
  | point p => cases h; exact ⟨[], by simp, .nil⟩
  | segment e t =>
    simp only [bindOk] at h
    obtain ⟨⟨m, f1⟩, h1, h⟩ := h
    cases h
    exact pointOnSegment_trail hf ht h1
  | polygon q => exact ⟨_, by simp, addPt_trail h⟩

omit [IsStrictOrderedRing K] in
theorem rmSegment_trail {e : Id} {f f' : Fr K} (h : rmSegment c e f = .ok f') : Trail c f [.rmSeg e] f' := by
  refine .cons (v := fun g => do
    let r ← addSegment c (f.dec.vtx (e, false)) (f.dec.vtx (e, true)) g
    .ok r.2) trivial ?_ .nil
  simp only [Prm.act, h, bind, Except.bind]

omit [IsStrictOrderedRing K] in
theorem rmPt_trail {p : Id} {f f' : Fr K} (h : Front.rmPt p f = .ok f') : Trail c f [.rmPt p] f' := by
  refine .cons (v := fun g => do
    let q ← need .attributeError (f.dec.ppoly p)
    let r ← Front.addPt (f.dec.xy p) q g
    .ok r.2) trivial ?_ .nil
  simp only [Prm.act, h, bind, Except.bind]

omit [IsStrictOrderedRing K] in
theorem rmSegments_trail : ∀ {l : List HE} {f f' : Fr K}, rmSegments c l f = .ok f' →
    ∃ ps, ps.length = l.length ∧ Trail c f ps f'
  | [], f, f', h => by cases h; exact ⟨[], rfl, .nil⟩
  | d :: l, f, f', h => by
    rw [rmSegments] at h
    simp only [bindOk] at h
    obtain ⟨f1, h1, h⟩ := h
    obtain ⟨ps, k1, k2⟩ := rmSegments_trail h
    exact ⟨[.rmSeg d.1] ++ ps, by simp [k1], (rmSegment_trail h1).append k2⟩

omit [IsStrictOrderedRing K] in
theorem deletePoint_trail {p : Id} {f f' : Fr K} (h : deletePoint c p f = .ok f') : ∃ ps, Trail c f ps f' := by
  unfold deletePoint at h
  simp only [bindOk] at h
  obtain ⟨l, _, f1, h1, h2⟩ := h
  obtain ⟨ps, _, k⟩ := rmSegments_trail h1
  exact ⟨ps ++ [.rmPt p], k.append (rmPt_trail h2)⟩

/-- **C154.** `add_point`, `delete_segment` and `delete_point` are sequences of undoable calls, whatever was done and undone before;
as many times `undo`, if it raises nothing, gives back points, coordinates, segments, ends, links, the ids to come, and the number
of recorded steps. -/
theorem call_undo (hg : AngleOk c.geo) {f f' : Fr K} (hf : Fine c.geo f.dec) (ht : 0 < f.tol) {o : Call K}
    (ho : (∃ x, o = .addPoint x) ∨ (∃ e, o = .deleteSegment e) ∨ ∃ p, o = .deletePoint p) (h : call c f o = .ok f') :
    ∃ ps : List (Prm K), ∀ w : World (Fr K) Err, w.doc = f → w.stk = Stack.init →
      ∃ w1, Verif.Undo.calls (ps.map (Prm.gen c)) w = (w1, none) ∧ w1.doc = f' ∧ w1.stk.undocount = ps.length ∧
        ∀ w2, Verif.Undo.undoTimes ps.length w1 = (w2, none) →
          Fine c.geo w2.doc.dec ∧ Like w2.doc f ∧ w2.stk.undocount = 0 := by
  have ht : ∃ ps, Trail c f ps f' := by
    rcases ho with ⟨x, rfl⟩ | ⟨e, rfl⟩ | ⟨p, rfl⟩
    · simp only [call, bindOk] at h
      obtain ⟨⟨p, f1⟩, h1, h⟩ := h
      cases h
      obtain ⟨ps, _, k⟩ := addPoint_trail hf ht h1
      exact ⟨ps, k⟩
    · exact ⟨_, rmSegment_trail h⟩
    · exact deletePoint_trail h
  obtain ⟨ps, k⟩ := ht
  refine ⟨ps, fun w hw hi => ?_⟩
  obtain ⟨w1, j1, j2, j3⟩ := k.calls hw (by rw [hi]; rfl)
  refine ⟨w1, j1, j2, by rw [j3, hi]; simp [Stack.undocount, Stack.init], fun w2 h2 => ?_⟩
  have hA : Verif.Undo.Agree (Inv' c) Like w ⟨[], w.doc, []⟩ := by
    refine ⟨by rw [hi]; rfl, by rw [hw]; exact hf, like_equiv.refl _, ?_, ?_⟩
    · rw [hi]; exact .nil
    · rw [hi]; exact .nil
  obtain ⟨m1, m2, m3, _⟩ := Verif.Undo.calls_undo like_equiv hA (hw ▸ Oks.good hg k.oks) j1 (by simpa using h2)
  refine ⟨m1, hw ▸ m2, ?_⟩
  rw [m3, hi]
  rfl

end
end Verif.Front
