import Verif.Model.Machine
import Verif.Model.ModuleHomology

/-!
# `image_kernel`, `quotient` and `module_persistence_homology` on numbers of bounded precision

The definitions of `Model/ImageKernel` and `Model/ModuleHomology` again, with the operations on entries of arrays
replaced by the operations `o` of a machine.  Those which do no arithmetic are shared.
-/

namespace Permaviss

variable (o : Ops) {α : Type} [LinearOrder α]

/-- One column of `update_broken`, barcode_bases.py:379-383; see `updateBrokenCol`. -/
def updateBrokenColO (p : Nat) (BD : Mat) (dying : List Nat) (c : List Int) : List Int :=
  (List.range c.length).map fun i =>
    o.mod (o.add (if i ∈ dying then 0 else c.getD i 0)
      (dotO o (dying.map fun k => BD.get i k) (dying.map fun k => c.getD k 0))) p

/-- `update_broken(A, rad, p)`, barcode_bases.py:341-385; see `Basis.updateBroken`. -/
def Basis.updateBrokenO (p : Nat) (B : Basis α) (A : Mat) (rad : α) : Except PyErr Mat :=
  match B.death rad with
  | .error e => .error e
  | .ok dying =>
      if dying = [] then .ok A
      else
        match B.brokenDiff with
        | none => .error .typeError
        | some BD => .ok ⟨A.nrows, A.cols.map (updateBrokenColO o p BD dying)⟩

/-- One column operation of `pivot_check_reduce`, image_kernel.py:278-284. -/
def addPrevColO (p : Nat) (inv : Int) (M : Mat) (prev col : Nat) : Mat :=
  M.setCol col (addArraysO o (scaleO o inv (M.col prev)) (M.col col) p)

/-- The recursion of `pivot_check_reduce`, image_kernel.py:272-290; see `pcrLoop`. -/
def pcrLoopO (p : Nat) (active : List Nat) (col : Nat) (pivPrev : List Int) :
    Nat → Mat → Option Mat → Except PyErr (Mat × Option Mat × Int)
  | 0, _, _ => .error .outOfFuel
  | fuel + 1, M, T =>
    match indexPivot (active.map fun r => o.mod ((M.col col).getD r 0) p) with
    | none => .ok (M, T, -1)
    | some k =>
      match pivPrev.findIdx? (· == (active.getD k 0 : Int)) with
      | none => .ok (M, T, (active.getD k 0 : Int))
      | some prev =>
        match invModPO o ((M.col prev).getD (active.getD k 0) 0) p with
        | .error e => .error e
        | .ok inv =>
          pcrLoopO p active col pivPrev fuel (addPrevColO o p inv M prev col)
            (if anyMat T then T.map fun T => addPrevColO o p inv T prev col else T)

/-- `pivot_check_reduce(M, active_rows, col_idx, pivots_prev, p, T)`, image_kernel.py:272-290. -/
def pivotCheckReduceO (p : Nat) (M : Mat) (active : List Nat) (col : Nat) (pivPrev : List Int)
    (T : Option Mat) : Except PyErr (Mat × Option Mat × Int) :=
  pcrLoopO o p active col pivPrev (M.nrows * p + 1) M T

/-- `multiply_mod_p(F[:, idx], v[idx], p)`, image_kernel.py:183-185 (and 232-233). -/
def mulAtO (p : Nat) (F : Mat) (idx : List Nat) (v : List Int) : List Int :=
  (List.range F.nrows).map fun i =>
    o.mod (dotO o (idx.map fun k => F.get i k) (idx.map fun k => v.getD k 0)) p

/-- The update of the image by a kernel generator, image_kernel.py:181-194. -/
def kerHitO (E : IKEnv α) (rad : α) (activeA activeB : List Nat) (cyc : List Int) (s : Nat)
    (st : IK α) : Except PyErr (IK α) :=
  if npAny (activeB.map fun r => (mulAtO o E.p E.F activeA cyc).getD r 0) then .error .valueError
  else if st.pivIm.getD s 0 ≠ -1 then
    .ok { st with
      imDeath := st.imDeath.set s rad
      im := st.im.setCol s (mulAtO o E.p E.F activeA cyc)
      pivIm := st.pivIm.set s (-1)
      T := st.T.setCol s (overwriteAt activeA (st.T.col s) cyc) }
  else .ok { st with imDeath := st.imDeath.set s rad }

/-- One round of the loop over kernel generators, image_kernel.py:174-199. -/
def kerStepO (E : IKEnv α) (rad : α) (activeA activeB dyingA : List Nat) (old : List Int)
    (s : IK α × List Int) (c : Nat) : Except PyErr (IK α × List Int) :=
  if dyingA.any (fun d => (d : Int) == old.getD c 0) || s.2.contains (old.getD c 0) then
    match pivotCheckReduceO o E.p s.1.ker activeA c (s.1.pivKer.take c) none with
    | .error e => .error e
    | .ok (K, _, q) =>
      if q ≠ -1 then
        match kerHitO o E rad activeA activeB (K.col c) q.toNat
            { s.1 with ker := K, pivKer := s.1.pivKer.set c q } with
        | .error e => .error e
        | .ok st => .ok (st, s.2 ++ [q])
      else
        .ok ({ s.1 with
          ker := K
          pivKer := s.1.pivKer.set c q
          kerBar := s.1.kerBar.set c ((s.1.kerBar.getD c (rad, rad)).1, rad) }, s.2)
  else .ok s

/-- The loop over kernel generators, image_kernel.py:173-200. -/
def kerPhaseO (E : IKEnv α) (rad : α) (activeA activeB dyingA : List Nat) (st : IK α) :
    Except PyErr (IK α) :=
  match (List.range E.A.dim).foldlM (kerStepO o E rad activeA activeB dyingA st.pivKer) (st, []) with
  | .error e => .error e
  | .ok s => .ok s.1

/-- The relative or broken case, image_kernel.py:201-210. -/
def relPhaseO (E : IKEnv α) (rad : α) (dyingA : List Nat) (st : IK α) : Except PyErr (IK α) :=
  if E.B.brokenDiff.isSome then
    match E.B.updateBrokenO o E.p (dyingA.foldl (relKill E.start rad) st).im rad with
    | .error e => .error e
    | .ok M => .ok { dyingA.foldl (relKill E.start rad) st with im := M }
  else .ok (dyingA.foldl (relKill E.start rad) st)

/-- `T[:, c][:start] *= 0` and the new coordinates, image_kernel.py:230-233. -/
def stripPrevO (E : IKEnv α) (c : Nat) (st : IK α) : IK α :=
  { st with
    T := st.T.setCol c (overwriteAt (List.range E.start) (st.T.col c) [])
    im := st.im.setCol c (mulAtO o E.p E.F (List.range E.F.ncols)
      (overwriteAt (List.range E.start) (st.T.col c) [])) }

/-- Column `c` of the image became zero, image_kernel.py:221-233. -/
def imDieO (E : IKEnv α) (rad : α) (dyingA : List Nat) (c : Nat) (st : IK α) :
    Except PyErr (IK α) :=
  if E.full then
    if dyingA.contains c then .ok { st with imDeath := st.imDeath.set c rad }
    else kerBirth E rad c { st with imDeath := st.imDeath.set c rad }
  else if 0 < E.start then .ok (stripPrevO o E c { st with imDeath := st.imDeath.set c rad })
  else .ok { st with imDeath := st.imDeath.set c rad }

/-- One round of the loop over image generators, image_kernel.py:213-235. -/
def imStepO (E : IKEnv α) (rad : α) (activeB dyingA birthA dyingB : List Nat) (old : List Int)
    (s : IK α × List Int) (c : Nat) : Except PyErr (IK α × List Int) :=
  if (decide (0 ≤ old.getD c 0) &&
        decide (o.mod ((s.1.im.col c).getD (old.getD c 0).toNat 0) E.p = 0)) ||
      dyingB.any (fun d => (d : Int) == old.getD c 0) || s.2.contains (old.getD c 0) ||
      birthA.contains c then
    match pivotCheckReduceO o E.p s.1.im activeB c (s.1.pivIm.take c) (some s.1.T) with
    | .error e => .error e
    | .ok (M, T, q) =>
      if q ≠ -1 then
        .ok ({ s.1 with im := M, T := T.getD s.1.T, pivIm := s.1.pivIm.set c q }, s.2 ++ [q])
      else
        match imDieO o E rad dyingA c
            { s.1 with im := M, T := T.getD s.1.T, pivIm := s.1.pivIm.set c q } with
        | .error e => .error e
        | .ok st => .ok (st, s.2)
  else .ok s

/-- The loop over image generators, image_kernel.py:212-236. -/
def imPhaseO (E : IKEnv α) (rad : α) (activeB dyingA birthA dyingB : List Nat) (st : IK α) :
    Except PyErr (IK α) :=
  match (List.range E.A.dim).foldlM (imStepO o E rad activeB dyingA birthA dyingB st.pivIm)
      (st, []) with
  | .error e => .error e
  | .ok s => .ok s.1

/-- One radius of the main loop, image_kernel.py:166-236. -/
def ikRadiusO (E : IKEnv α) (st : IK α) (rad : α) : Except PyErr (IK α) := do
  let activeA ← E.A.active rad
  let activeB ← E.B.active rad
  let dyingA ← E.A.death rad
  let birthA ← E.A.birth rad
  let dyingB ← E.B.death rad
  let st ← if E.full then kerPhaseO o E rad activeA activeB dyingA st else relPhaseO o E rad dyingA st
  imPhaseO o E rad activeB dyingA birthA dyingB st

/-- The main loop, image_kernel.py:166-237. -/
def ikLoopO (E : IKEnv α) : List α → IK α → Except PyErr (IK α)
  | [], st => .ok st
  | rad :: l, st =>
    match ikRadiusO o E st rad with
    | .error e => .error e
    | .ok st => ikLoopO E l st

/-- `image_kernel(A, B, F, p, start_index)`, image_kernel.py:19-268. -/
def imageKernelO [Zero α] (rnd : α → α) (p : Nat) (A B : Basis α) (F : Mat) (start : Nat) :
    Except PyErr (IKOut α) :=
  if B.dim ≠ F.nrows ∨ A.dim ≠ F.ncols then .error .valueError
  else do
    let (B', F1, retB) ← sortRange rnd B F
    let (A', F2, retA) ← sortDomain rnd A F1 start
    if A'.flat then .error .indexError
    else
      let E : IKEnv α := ⟨p, A', B', F2, start⟩
      let st ← ikLoopO o E E.radii E.init
      ikFinish rnd E A.dim B.dim retA retB st

/-- `quotient(M, N, p)`, module_persistence_homology.py:17-53. -/
def quotientO [Zero α] (rnd : α → α) (p : Nat) (M N amb : Basis α) (same : Bool) :
    Except PyErr (Basis α) :=
  if N.dim = 0 then .ok M
  else if !same then .error .valueError
  else if M.flat ∨ N.flat then .error .valueError
  else do
    let NM ← Basis.init (N.barcode ++ M.barcode) false none ⟨0, []⟩ false false none
    if N.coords.nrows ≠ M.coords.nrows then .error .valueError
    else
      let out ← imageKernelO o rnd p NM amb ⟨M.coords.nrows, N.coords.cols ++ M.coords.cols⟩ N.dim
      pure out.im

/-- Round `d` of the loop, module_persistence_homology.py:98-111. -/
def mphStepO [Zero α] (rnd : α → α) (p : Nat) (D : List Mat) (Base : List (Basis α)) (st : MPH α)
    (d : Nat) : Except PyErr (MPH α) :=
  match Base[d]?, Base[d - 1]? with
  | some Bd, some Bd1 =>
    if Bd.dim = 0 then
      .ok { st with im := st.im.set (d - 1) (some (emptyBasis Bd1)),
                    hom := st.hom.set d (some (emptyBasis Bd)) }
    else if Bd1.dim = 0 then
      .ok { st with im := st.im.set (d - 1) (some Bd1), hom := st.hom.set d (some Bd) }
    else
      match D[d]? with
      | none => .error .indexError
      | some F => do
        let out ← imageKernelO o rnd p Bd Bd1 F 0
        match out.ker, st.im[d]? with
        | some ker, some (some imd) => do
          let h ← quotientO o rnd p ker imd Bd true
          pure { hom := st.hom.set d (some h), im := st.im.set (d - 1) (some out.im),
                 preIm := st.preIm.set d (some out.preIm) }
        | _, _ => .error .valueError
  | _, _ => .error .indexError

/-- Degree zero, module_persistence_homology.py:113-123. -/
def mphZeroO [Zero α] (rnd : α → α) (p : Nat) (Base : List (Basis α)) (st : MPH α) :
    Except PyErr (MPH α) :=
  match Base[0]?, st.im[0]? with
  | some B0, some (some im0) =>
    if B0.dim = 0 then .ok { st with hom := st.hom.set 0 (some B0) }
    else do
      let ker0 ← Basis.init B0.barcode B0.flat (some B0.dim) ⟨B0.dim, identityCols B0.dim⟩
        false false none
      let (ker, _) ← ker0.sort rnd
      let h ← quotientO o rnd p ker im0 B0 true
      pure { st with hom := st.hom.set 0 (some h) }
  | _, _ => .error .indexError

/-- `module_persistence_homology(D, Base, p)`, module_persistence_homology.py:60-126. -/
def modulePersistenceHomologyO [Zero α] (rnd : α → α) (p : Nat) (D : List Mat)
    (Base : List (Basis α)) : Except PyErr (MPH α) :=
  match Base[Base.length - 1]? with
  | none => .error .unboundLocalError
  | some top => do
    let st0 : MPH α :=
      { hom := List.replicate Base.length none
        im := (List.replicate Base.length none).set (Base.length - 1) (some (emptyBasis top))
        preIm := List.replicate Base.length none }
    let st ← ((List.range (Base.length - 1)).map fun i => Base.length - 1 - i).foldlM
      (mphStepO o rnd p D Base) st0
    mphZeroO o rnd p Base st

end Permaviss
