import Verif.Gmsh.Lemmas

/-! Histories of calls. -/
namespace Verif.Gmsh
open M

/-- Public calls. The results of the library are arbitrary. -/
inductive Op where
  | object (d t : Nat)
  | regionGet (n : Name) (d : Option Int)
  | getRegionName (n : Name)
  | group (objs : List Nat)
  | fragment (objs : List Nat) (res : Option (List (List DimTag)))
  | setRegion (o : Nat) (a : RegArg)
  | modifyRegions (o : Nat) (f : Name → Name)
  | copy (o : Nat) (res : Option (List DimTag))
  | getBoundary (o : Nat) (res : Option (List DimTag))
  | splitByRegion (o : Nat)
  | splitByDimension (o : Nat)
  | getBoundaryPerRegion (o : Nat) (f : Name → Name) (res : Nat → Option (List DimTag))
  | selectByIntersect (o : Nat) (tools : List Nat) (c1 c2 : Option (List DimTag)) (res : Option (List (List DimTag)))
  | splitByCut (o : Nat) (tools : List Nat) (res : Option (List (List DimTag))) (ord : List DimTag → List DimTag)
  | setRegionFromDimtag (o : Nat)
  | applyOperation (o : Nat) (tools : List Nat) (c : Option (List DimTag)) (res : Option (List (List DimTag)))
  | removeSmallMass (o : Nat) (big : DimTag → Bool)
  | makeMesh (objs : List Nat)
  | makeFractures (base : Nat) (frs : List (RegArg × Option (List DimTag))) (res : Option (List (List DimTag)))
  | invalidate (o : Nat)

/-- The state after a call, returned or raised. -/
def step (s : St) : Op → St
  | .object d t => (object d t s).2
  | .regionGet n d => (regionGet n d s).2
  | .getRegionName n => (getRegionName n s).2
  | .group objs => (group objs s).2
  | .fragment objs res => (fragment objs res s).2
  | .setRegion o a => (setRegion o a s).2
  | .modifyRegions o f => (modifyRegions o f s).2
  | .copy o res => (copy o res s).2
  | .getBoundary o res => (getBoundary o res s).2
  | .splitByRegion o => (splitByRegion o s).2
  | .splitByDimension o => (splitByDimension o s).2
  | .getBoundaryPerRegion o f res => (getBoundaryPerRegion o f res s).2
  | .selectByIntersect o tools c1 c2 res => (selectByIntersect o tools c1 c2 res s).2
  | .splitByCut o tools res ord => (splitByCut o tools res ord s).2
  | .setRegionFromDimtag o => (setRegionFromDimtag o s).2
  | .applyOperation o tools c res => (applyOperation o tools c res s).2
  | .removeSmallMass o big => (removeSmallMass o big s).2
  | .makeMesh objs => (makeMesh objs s).2
  | .makeFractures base frs res => (makeFractures base frs res s).2
  | .invalidate o => (invalidate o s).2

/-- Regions given as arguments exist. -/
def Op.Ok (s : St) : Op → Prop
  | .setRegion _ a => a.Ok s
  | .makeFractures _ frs _ => ∀ p ∈ frs, p.1.Ok s
  | _ => True

/-- States after histories of calls, also calls that raised. -/
inductive Reach : St → Prop
  | start : Reach start
  | step {s : St} {o : Op} : Reach s → o.Ok s → Reach (step s o)

/-- Later states of the same history. -/
inductive Later : St → St → Prop
  | refl {s : St} : Later s s
  | step {s s' : St} {o : Op} : Later s s' → o.Ok s' → Later s (step s' o)

theorem step_safe {s : St} (hI : Inv s) : ∀ {o : Op}, o.Ok s → Inv (step s o) ∧ s ≤ step s o := by
  intro o
  have key : ∀ {α : Type} {m : M α}, Safe m (fun _ _ => True) s → Inv (m s).2 ∧ s ≤ (m s).2 := fun h => ⟨h.1, h.2.1⟩
  cases o with
  | object => intro _; exact key (safe_object hI)
  | regionGet => intro _; exact key ((safe_regionGet hI).mono fun _ _ _ => trivial)
  | getRegionName => intro _; exact key ((safe_getRegionName hI).mono fun _ _ _ => trivial)
  | group => intro _; exact key (safe_group hI)
  | fragment => intro _; exact key (safe_fragment hI)
  | setRegion => intro h; exact key (safe_setRegion hI h)
  | modifyRegions => intro _; exact key (safe_modifyRegions hI)
  | copy => intro _; exact key (safe_copy hI)
  | getBoundary => intro _; exact key (safe_getBoundary hI)
  | splitByRegion => intro _; exact key (safe_splitByRegion hI)
  | splitByDimension => intro _; exact key (safe_splitByDimension hI)
  | getBoundaryPerRegion => intro _; exact key (safe_getBoundaryPerRegion hI)
  | selectByIntersect => intro _; exact key (safe_selectByIntersect hI)
  | splitByCut => intro _; exact key (safe_splitByCut hI)
  | setRegionFromDimtag => intro _; exact key (safe_setRegionFromDimtag hI)
  | applyOperation => intro _; exact key (safe_applyOperation hI)
  | removeSmallMass => intro _; exact key (safe_removeSmallMass hI)
  | makeMesh => intro _; exact key (safe_makeMesh hI)
  | makeFractures => intro h; exact key (safe_makeFractures hI h)
  | invalidate => intro _; exact key (safe_invalidate hI)

theorem Reach.inv {s : St} (h : Reach s) : Inv s := by
  induction h with
  | start => exact start_inv
  | step _ ho ih => exact (step_safe ih ho).1

theorem Later.reach {s s' : St} (h : Later s s') (hs : Reach s) : Reach s' := by
  induction h with
  | refl => exact hs
  | step _ ho ih => exact .step ih ho

theorem Later.grow {s s' : St} (h : Later s s') (hs : Reach s) : Grow s s' := by
  induction h with
  | refl => exact Grow.le (le_refl _)
  | step hl ho ih => exact Grow.le (le_trans (show s ≤ _ from ih) (step_safe (hl.reach hs).inv ho).2)

/-- In every state of every history each object set has one region for every entity. -/
theorem regions_match {s : St} (h : Reach s) {o : Nat} {b : Obj} (ho : s.obj o = some b) :
    b.regs.length = b.dts.length := h.inv.len o b ho

/-- Region ids are never given again: the id of a new region is the id of no default region, of no region made before, and of
no region of an object set. -/
theorem get_fresh {s s1 s2 s3 : St} {n m : Name} {d e : Option Int} {r q : Nat} (h : Reach s)
    (h1 : regionGet n d s = (.ok r, s1)) (h2 : Later s1 s2) (h3 : regionGet m e s2 = (.ok q, s3)) :
    r ≠ q ∧ firstId + 3 < q ∧ (s3.reg q = ⟨e, m⟩) ∧ ∀ o b, s2.obj o = some b → q ∉ b.regs := by
  have e1 : s1 = step s (.regionGet n d) := (congrArg Prod.snd h1).symm
  have hr1 : Reach s1 := e1 ▸ .step h trivial
  have hI := (h2.reach hr1).inv
  have hm := (h2.grow hr1).max
  cases h1
  cases h3
  have := hI.max
  refine ⟨?_, by omega, ?_, ?_⟩
  · have : s.maxId + 1 ≤ s2.maxId := hm
    omega
  · simp only [Function.update_self]
  · intro o b ho hb
    have := (hI.known o b ho _ hb).2
    omega

/-- A region name gives the same region in all later calls, different names give different regions. -/
theorem region_name_stable {s s1 s2 s3 : St} {n m : Name} {r q : Nat} (h : Reach s) (h1 : getRegionName n s = (.ok r, s1))
    (h2 : Later s1 s2) (h3 : getRegionName m s2 = (.ok q, s3)) : r = q ↔ n = m := by
  have put : ∀ {s s' : St} {n : Name} {r : Nat}, Inv s → getRegionName n s = (.ok r, s') → (n, r) ∈ s'.names ∧
      s.names <+: s'.names := by
    intro s s' n r hI hs
    refine ⟨?_, by have := (safe_getRegionName (n := n) hI).2.1.names; rw [hs] at this; exact this⟩
    unfold getRegionName at hs
    obtain ⟨new, s1, g1, g2⟩ := bind_ok.1 hs
    unfold keepName at g2
    split at g2
    · rename_i r' hr; cases g2; exact find_mem hr
    · cases g2; exact List.mem_append_right _ (by simp)
  have e1 : s1 = step s (.getRegionName n) := (congrArg Prod.snd h1).symm
  have hr1 : Reach s1 := e1 ▸ .step h trivial
  have hr2 := h2.reach hr1
  have e3 : s3 = step s2 (.getRegionName m) := (congrArg Prod.snd h3).symm
  have hI3 := (e3 ▸ Reach.step hr2 trivial : Reach s3).inv
  obtain ⟨a1, _⟩ := put h.inv h1
  obtain ⟨a2, a3⟩ := put hr2.inv h3
  have a1' : (n, r) ∈ s3.names := a3.subset ((h2.grow hr1).names.subset a1)
  constructor
  · rintro rfl
    exact congrArg Prod.fst (List.inj_on_of_nodup_map hI3.valNd a1' a2 rfl)
  · rintro rfl
    exact congrArg Prod.snd (List.inj_on_of_nodup_map hI3.keyNd a1' a2 rfl)

/-- The dimension of a region does not change once it is set, and an invalidated object set is never valid again. -/
theorem dims_and_invalid_final {s s' : St} (h : Reach s) (h' : Later s s') :
    (∀ r d, r ≤ s.maxId → (s.reg r).dim = some d → (s'.reg r).dim = some d) ∧
    (∀ o < s.nobj, s.obj o = none → s'.obj o = none) :=
  ⟨(h'.grow h).dim, (h'.grow h).gone⟩

end Verif.Gmsh
